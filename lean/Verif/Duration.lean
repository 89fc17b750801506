import Verif.Basic
import Verif.Float

/-
Model of mpd/duration.go.
-/
namespace Verif.Duration

open Verif

/-! ### Rendering -/

/-- `w--; buf[w] = b` on the 32-byte buffer of `String` (duration.go:57-58).  The argument is the part
`buf[w:]` written so far; `none` is the index-out-of-range panic. -/
def put (acc : Bytes) (b : UInt8) : Option Bytes :=
  if acc.length < 32 then some (b :: acc) else none

/-- The loop of `fmtInt`, duration.go:161-165.  First argument: fuel, never less than `v`. -/
def fmtIntLoop : Nat → Bytes → Nat → Option Bytes
  | 0, acc, _ => some acc
  | k+1, acc, v =>
    if v = 0 then some acc
    else (put acc (UInt8.ofNat (v % 10) + 48)).bind fun acc => fmtIntLoop k acc (v / 10)

/-- `fmtInt`, duration.go:155-168. -/
def fmtInt (acc : Bytes) (v : Nat) : Option Bytes :=
  if v = 0 then put acc 48 else fmtIntLoop v acc v

/-- The loop of `fmtFrac`, duration.go:137-145: remaining iterations, buffer, `v`, `print`. -/
def fmtFracLoop : Nat → Bytes → Nat → Bool → Option (Bytes × Nat × Bool)
  | 0, acc, v, print => some (acc, v, print)
  | k+1, acc, v, print =>
    let digit := v % 10
    let print := print || digit != 0
    if print then
      (put acc (UInt8.ofNat digit + 48)).bind fun acc => fmtFracLoop k acc (v / 10) print
    else fmtFracLoop k acc (v / 10) print

/-- `fmtFrac`, duration.go:133-151. -/
def fmtFrac (acc : Bytes) (v : Nat) (prec : Nat) : Option (Bytes × Nat) :=
  (fmtFracLoop prec acc v false).bind fun (acc, v, print) =>
    if print then (put acc ch%'.').bind fun acc => some (acc, v) else some (acc, v)

/-- `math.Round` of a non-negative float: half away from zero, exact. -/
def goRound (q : ℚ) : ℤ := ⌊q + 1/2⌋

/-- `uint64(math.Round(float64(ns) * 1.0e-6))`, duration.go:71. -/
def msOf (ns : Nat) : Nat := (goRound (fl (fl (ns : ℚ) * fl (1 / 10^6)))).toNat

/-- The default case of the switch, duration.go:88-115, with `u = 1000*s + ms`. -/
def fmtLarge (acc : Bytes) (u : Nat) : Option Bytes :=
  (fmtFrac acc u 3).bind fun (acc, u) =>
  (fmtInt acc (u % 60)).bind fun acc =>
  let u := u / 60
  let acc := if acc = b!"0S" then [] else acc
  if 0 < u then
    (put acc ch%'M').bind fun acc =>
    (fmtInt acc (u % 60)).bind fun acc =>
    let u := u / 60
    let acc := if acc = b!"0M" then [] else acc
    if 0 < u then
      (put acc ch%'H').bind fun acc => fmtInt acc u
    else some acc
  else some acc

/-- The switch, duration.go:76-115, on seconds `s`, milliseconds `ms` and nanoseconds `u`. -/
def fmtBody (acc : Bytes) (u s ms : Nat) : Option Bytes :=
  if s = 0 ∧ ms = 0 then
    (fmtFrac acc u 9).bind fun (acc, u) => fmtInt acc u
  else if s = 0 then
    (fmtFrac acc ms 3).bind fun (acc, _) => put acc ch%'0'
  else fmtLarge acc (u64 (1000 * s + ms))

/-- `Duration.String`, duration.go:55-127.  `none` is a panic. -/
def goString (d : Int) : Option Bytes :=
  let u := (d % 2^64).toNat                                    -- uint64(*d)
  if u = 0 then some (b!"PT0S") else
  let neg := decide (d < 0)
  let u := if neg then (2^64 - u) % 2^64 else u                -- u = -u
  let s := u / 1000000000
  let ns := u - s * 1000000000
  let ms := msOf ns
  (put [] ch%'S').bind fun acc =>
  (fmtBody acc u s ms).bind fun acc =>
  (put acc ch%'T').bind fun acc =>
  (put acc ch%'P').bind fun acc =>
  if neg then put acc ch%'-' else some acc

/-! ### Parsing -/

/-- The error messages of `ParseDuration`. -/
inductive PErr
  | required   -- "at least one number and designator are required"
  | negative   -- "duration cannot be negative"
  | format     -- "duration must be in the format: P[nD][T[nH][nM][nS]]"
  | days | hours | minutes | seconds
  | fuel       -- not in the code; shown unreachable
  deriving DecidableEq, Repr

/-- Platform-dependent part of Go: the result of converting a float outside the `int64` range
(`none` is `+Inf`) to `int64`. Theorems hold for every choice. -/
structure Arch where
  oob : Option ℚ → Int

/-- `int64(f)` for a non-negative float: truncation when in range. -/
def f64toI64 (a : Arch) : Option ℚ → Int
  | some q => if q < 2^63 then ⌊q⌋ else i64 (a.oob (some q))
  | none => i64 (a.oob none)

/-- `strconv.ParseUint(s, 10, 64)`: decimal digits only, value below 2^64. -/
def parseUint64 (s : Bytes) : Option Nat :=
  if s = [] then none
  else if s.all isDigit then (if decVal s < 2^64 then some (decVal s) else none)
  else none

/-- Value of a numeral `digits [. digits]` as a rational: `intPart.fracPart`. -/
def numeralVal (ip fp : Bytes) : ℚ := (decVal ip : ℚ) + (decVal fp : ℚ) / 10 ^ fp.length

/-- Split at the first `.`. -/
def splitDot : Bytes → Bytes × Bytes
  | [] => ([], [])
  | b :: bs => if b = ch%'.' then ([], bs) else ((b :: (splitDot bs).1), (splitDot bs).2)

/-- `strconv.ParseFloat(s, 64)` restricted to strings of digits with at most one dot, which is all
`ParseDuration` passes to it: syntax error without a digit, range error on overflow, otherwise the
correctly rounded value. -/
def parseFloat (s : Bytes) : Option ℚ :=
  let (ip, fp) := splitDot s
  if ip = [] ∧ fp = [] then none
  else flo (numeralVal ip fp)

/-- `rank`, duration.go:191-203. -/
def rank (c : UInt8) : Nat :=
  if c = ch%'D' then 1 else if c = ch%'H' then 2 else if c = ch%'M' then 3 else if c = ch%'S' then 4 else 0

/-- The scanning loop duration.go:221-233: the scanned numeral, the rest, and `sawDot`. -/
def scan : Bytes → Bool → Bytes × Bytes × Bool
  | [], d => ([], [], d)
  | b :: bs, d =>
    if isDigit b then (b :: (scan bs d).1, (scan bs d).2)
    else if b = ch%'.' ∧ d = false then (b :: (scan bs true).1, (scan bs true).2)
    else ([], b :: bs, d)

/-- Loop state of `ParseDuration` (duration.go:182-188); `last` is `rank(lastUnit)`. -/
structure PSt where
  afterT : Bool
  seenAny : Bool
  last : Nat
  total : Int

/-- The unit switch, duration.go:259-284. -/
def addField (a : Arch) (unit : UInt8) (num : Bytes) (total : Int) : Except PErr Int :=
  if unit = ch%'D' then
    match parseUint64 num with
    | none => .error .days
    | some n => .ok (i64 (total + i64 (i64 (i64 n * 24) * 3600000000000)))
  else if unit = ch%'H' then
    match parseUint64 num with
    | none => .error .hours
    | some n => .ok (i64 (total + i64 (i64 n * 3600000000000)))
  else if unit = ch%'M' then
    match parseUint64 num with
    | none => .error .minutes
    | some n => .ok (i64 (total + i64 (i64 n * 60000000000)))
  else
    match parseFloat num with
    | none => .error .seconds
    | some f => .ok (i64 (total + f64toI64 a (flo (f * 1000000000))))

/-- The main loop, duration.go:205-289, on the unread suffix of the string. First argument: fuel. -/
def parseLoop (a : Arch) : Nat → Bytes → PSt → Except PErr Int
  | _, [], st => if st.seenAny then .ok st.total else .error .required
  | 0, _ :: _, _ => .error .fuel
  | k+1, c :: cs, st =>
    if c = ch%'T' then
      if st.afterT then .error .format else parseLoop a k cs { st with afterT := true }
    else if c = ch%'-' then .error .negative
    else
      match scan (c :: cs) false with
      | (num, rest, sawDot) =>
        if num = [] then .error .format
        else match rest with
          | [] => .error .format
          | unit :: rest =>
            if rank unit = 0 then .error .format
            else if rank unit ≤ st.last then .error .format
            else if unit ≠ ch%'D' ∧ st.afterT = false then .error .format
            else if sawDot = true ∧ unit ≠ ch%'S' then .error .format
            else
              match addField a unit num st.total with
              | .error e => .error e
              | .ok t => parseLoop a k rest { st with seenAny := true, last := rank unit, total := t }

/-- `ParseDuration`, duration.go:171-290. -/
def parse (a : Arch) (str : Bytes) : Except PErr Int :=
  if str.length < 3 then .error .required
  else match str with
    | [] => .error .required
    | c :: cs =>
      if c = ch%'-' then .error .negative
      else if c ≠ ch%'P' then .error .format
      else parseLoop a cs.length cs { afterT := false, seenAny := false, last := 0, total := 0 }

/-- `Duration.Seconds`, duration.go:293-295, for non-negative durations. -/
def seconds (d : Nat) : ℚ := fl (fl (d : ℚ) / 1000000000)

end Verif.Duration
