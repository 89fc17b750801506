import Verif.Float
import Verif.Strconv
import Verif.Period

/-
`DateTime` conversions of mpd/io.go and `Period.AbsoluteStart` of mpd/period.go.

The functions call Go's `time` package (Go 1.25 standard library, not part of /repo).  What the calls do
for the one layout `RFC3339MS` is modelled here: `time.Unix`, `Time.Format`, `time.Parse`,
`Time.UnixNano`.  Those parts of the model are transcriptions of the standard library, not of /repo, and
are listed as trusted in DESIGN.md.
-/
namespace Verif.DateTime
open Verif Strconv

/-- Leap year of the proleptic Gregorian calendar (`time.isLeap`). -/
def isLeap (y : Int) : Bool := decide (y % 4 = 0) && (decide (y % 100 ≠ 0) || decide (y % 400 = 0))

/-- `time.daysIn(month, year)`. -/
def daysIn (m : Nat) (y : Int) : Nat :=
  if m = 2 then (if isLeap y then 29 else 28)
  else if m = 4 ∨ m = 6 ∨ m = 9 ∨ m = 11 then 30 else 31

/-- A calendar date. -/
structure Civil where
  year : Int
  month : Nat
  day : Nat
  deriving DecidableEq, Repr

/-- `Time.Date`: the calendar date of a day counted from 1970-01-01, by splitting the count into cycles of
400, 100, 4 and 1 years that start on 1 March. -/
def civilOfDays (z : Int) : Civil :=
  let n := z + 719468
  let era := n / 146097
  let doe := n % 146097
  let n100 := if doe / 36524 = 4 then 3 else doe / 36524
  let r1 := doe - 36524 * n100
  let n4 := r1 / 1461
  let r2 := r1 - 1461 * n4
  let n1 := if r2 / 365 = 4 then 3 else r2 / 365
  let doy := r2 - 365 * n1
  let mp := (5 * doy + 2) / 153
  let d := doy - (153 * mp + 2) / 5 + 1
  let m := if mp < 10 then mp + 3 else mp - 9
  let y := 400 * era + 100 * n100 + 4 * n4 + n1
  { year := if m ≤ 2 then y + 1 else y, month := m.toNat, day := d.toNat }

/-- `time.Date` for a valid date: days since 1970-01-01, counted from a year that starts on 1 March. -/
def daysOfCivil (c : Civil) : Int :=
  let y := if c.month ≤ 2 then c.year - 1 else c.year
  let mp : Int := if c.month ≤ 2 then (c.month : Int) + 9 else (c.month : Int) - 3
  365 * y + y / 4 - y / 100 + y / 400 + (153 * mp + 2) / 5 + (c.day : Int) - 1 - 719468

/-- `time.Time` in UTC: seconds since the epoch, nanoseconds within the second. -/
structure Time where
  sec : Int
  nsec : Nat
  deriving DecidableEq, Repr

/-- `time.Unix(sec, nsec)`, which carries nanoseconds outside [0, 999999999] into the seconds. -/
def unix (sec nsec : Int) : Time :=
  if nsec < 0 ∨ 1000000000 ≤ nsec then
    let n := Int.tdiv nsec 1000000000
    let sec := sec + n
    let nsec := nsec - n * 1000000000
    if nsec < 0 then ⟨sec - 1, (nsec + 1000000000).toNat⟩ else ⟨sec, nsec.toNat⟩
  else ⟨sec, nsec.toNat⟩

/-- `appendInt(b, x, width)` of package `time` for a non-negative `x`: at least `width` digits. -/
def pad (w : Nat) (n : Nat) : Bytes :=
  let s := formatUint n
  List.replicate (w - s.length) ch%'0' ++ s

/-- `appendInt(b, year, 4)`. -/
def padYear (y : Int) : Bytes := if y < 0 then ch%'-' :: pad 4 y.natAbs else pad 4 y.natAbs

/-- Drop trailing `0` bytes (the trimming loop of `time.appendNano`). -/
def trimZeros (s : Bytes) : Bytes := (s.reverse.dropWhile (· = ch%'0')).reverse

/-- `time.appendNano` for the layout chunk `.999`: milliseconds with trailing zeros removed, nothing when
all three digits are zero. -/
def fracText (nsec : Nat) : Bytes :=
  if nsec = 0 then []
  else
    let s := trimZeros ((pad 9 nsec).take 3)
    if s = [] then [] else ch%'.' :: s

/-- `t.Format(RFC3339MS)` of a UTC time. -/
def format (t : Time) : Bytes :=
  let c := civilOfDays (t.sec / 86400)
  let r := (t.sec % 86400).toNat
  padYear c.year ++ (ch%'-' :: (pad 2 c.month ++ (ch%'-' :: (pad 2 c.day ++ (ch%'T' :: (pad 2 (r / 3600)
    ++ (ch%':' :: (pad 2 (r % 3600 / 60) ++ (ch%':' :: (pad 2 (r % 60) ++ (fracText t.nsec ++ [ch%'Z'])))))))))))

/-- `ConvertToDateTimeS`, io.go:129-132. -/
def dateTimeS (s : Int) : Bytes := format (unix s 0)

/-- `ConvertToDateTimeMS`, io.go:135-140. -/
def dateTimeMS (ms : Int) : Bytes :=
  let seconds := Int.tdiv ms 1000
  let ns := (ms - 1000 * seconds) * 1000000
  format (unix seconds ns)

/-- `int64(x)` of a float inside the int64 range: truncation towards zero. -/
def truncQ (q : ℚ) : Int := if q < 0 then - ⌊-q⌋ else ⌊q⌋

/-- `ConvertToDateTime`, io.go:120-126, for finite `seconds` inside the int64 range.  Each float operation
rounds. -/
def dateTimeF (seconds : ℚ) : Bytes :=
  let s := truncQ seconds
  let ns := truncQ (flS (flS (seconds - flS s) * 1000000000))
  format (unix s ns)

/-! ### `time.Parse` with the layout RFC3339MS -/

/-- Drop one literal byte. -/
def lit (c : UInt8) : Bytes → Option Bytes
  | x :: xs => if x = c then some xs else none
  | [] => none

def digitVal (c : UInt8) : Nat := c.toNat - 48

/-- `time.getnum(s, fixed)`: one or two digits, exactly two if `fixed`. -/
def getnum (fixed : Bool) : Bytes → Option (Nat × Bytes)
  | a :: b :: rest =>
    if isDigit a then
      if isDigit b then some (digitVal a * 10 + digitVal b, rest)
      else if fixed then none else some (digitVal a, b :: rest)
    else none
  | [a] => if isDigit a && !fixed then some (digitVal a, []) else none
  | [] => none

/-- The layout chunk `2006`: four bytes, the first a digit, all digits (`atoi`). -/
def year4 : Bytes → Option (Nat × Bytes)
  | a :: b :: c :: d :: rest =>
    if isDigit a && isDigit b && isDigit c && isDigit d then
      some (((digitVal a * 10 + digitVal b) * 10 + digitVal c) * 10 + digitVal d, rest)
    else none
  | _ => none

/-- `getnum` followed by a range check. -/
def numIn (fixed : Bool) (lo hi : Nat) (v : Bytes) : Option (Nat × Bytes) :=
  match getnum fixed v with
  | some (n, rest) => if lo ≤ n ∧ n ≤ hi then some (n, rest) else none
  | none => none

/-- The layout chunk `.999`: an optional fraction of any length, of which nine digits count
(`parseNanoseconds`). -/
def fracNanos (v : Bytes) : Nat × Bytes :=
  match v with
  | c :: d :: rest =>
    if (c = ch%'.' ∨ c = ch%',') ∧ isDigit d then
      let ds := (d :: rest).takeWhile isDigit
      let used := ds.take 9
      (decVal used * 10 ^ (9 - used.length), (d :: rest).dropWhile isDigit)
    else (0, v)
  | _ => (0, v)

/-- The layout chunk `Z07:00`: `Z`, or a sign and `hh:mm`.  The result is the offset in seconds. -/
def zone (v : Bytes) : Option (Int × Bytes) :=
  match v with
  | ch :: rest =>
    if ch = ch%'Z' then some (0, rest)
    else
      match rest with
      | h1 :: h2 :: c :: m1 :: m2 :: rest' =>
        if c = ch%':' then
          match getnum true [h1, h2], getnum true [m1, m2] with
          | some (hr, _), some (mm, _) =>
            if hr ≤ 24 ∧ mm ≤ 60 then
              if ch = ch%'+' then some (((hr * 60 + mm) * 60 : Nat), rest')
              else if ch = ch%'-' then some (-((hr * 60 + mm) * 60 : Nat), rest')
              else none
            else none
          | _, _ => none
        else none
      | _ => none
  | [] => none

/-- `time.Parse(RFC3339MS, v)`; `none` stands for any parse error. -/
def parse (v : Bytes) : Option Time := do
  let (y, v) ← year4 v
  let v ← lit ch%'-' v
  let (mo, v) ← numIn true 1 12 v
  let v ← lit ch%'-' v
  let (d, v) ← numIn true 0 99 v
  let v ← lit ch%'T' v
  let (h, v) ← numIn false 0 23 v
  let v ← lit ch%':' v
  let (mi, v) ← numIn true 0 59 v
  let v ← lit ch%':' v
  let (s, v) ← numIn true 0 59 v
  let (ns, v) := fracNanos v
  let (off, v) ← zone v
  if v ≠ [] then none
  else if d < 1 ∨ daysIn mo y < d then none
  else
    some ⟨daysOfCivil ⟨y, mo, d⟩ * 86400 + (h * 3600 + mi * 60 + s : Nat) - off, ns⟩

/-- `t.UnixNano()`, wrapping around in int64. -/
def unixNano (t : Time) : Int := i64 (t.sec * 1000000000 + t.nsec)

/-- `DateTime.ConvertToSeconds`, io.go:143-149. -/
def convertToSeconds (dt : Bytes) : Option ℚ :=
  (parse dt).map fun t => flS (flS (unixNano t) / 1000000000)

/-- `Duration.Seconds`, duration.go:293-295, for any int64. -/
def durSeconds (d : Int) : ℚ := flS (flS d / 1000000000)

/-- What `AbsoluteStart` can return besides a number. -/
inductive AbsErr
  | astRequired | badAST | start (e : Period.Err)
  deriving DecidableEq, Repr

/-- `Period.AbsoluteStart`, period.go:14-27.  `ast` is `m.AvailabilityStartTime` (the text) and `start` the
outcome of `p.GetStart()`; note that `m` need not be the parent of `p`. -/
def absoluteStart (ast : Bytes) (start : Except Period.Err Int) : Except AbsErr ℚ :=
  if ast = [] then .error .astRequired
  else match convertToSeconds ast with
    | none => .error .badAST
    | some a =>
      match start with
      | .error e => .error (.start e)
      | .ok d => .ok (flS (a + durSeconds d))

end Verif.DateTime
