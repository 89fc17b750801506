import Verif.Basic
import Mathlib.Algebra.Order.Field.Rat
import Mathlib.Algebra.Order.Floor.Ring

/-
Independent specification of duration strings: XSD `xs:duration` restricted to days and smaller units
(the only ones with a fixed length), and the grammar accepted by `ParseDuration`.  Nothing here refers
to the model.
-/
namespace Verif.DurationSpec

open Verif

/-- A non-empty string of ASCII digits. -/
def Digits (s : Bytes) : Prop := s ≠ [] ∧ ∀ b ∈ s, isDigit b = true

/-- An optional field: numeral followed by its designator. -/
def fld (unit : UInt8) : Option Bytes → Bytes
  | none => []
  | some n => n ++ [unit]

/-- Value of an optional integer field. -/
def fldVal : Option Bytes → ℕ
  | none => 0
  | some n => decVal n

/-- XSD decimal seconds `d+ ( '.' d+ )?`, and its value. -/
inductive XsdSeconds : Bytes → ℚ → Prop
  | int (ip) : Digits ip → XsdSeconds ip (decVal ip)
  | frac (ip fp) : Digits ip → Digits fp →
      XsdSeconds (ip ++ ch%'.' :: fp) (decVal ip + decVal fp / 10 ^ fp.length)

/-- An optional seconds field of value `v`. -/
def XsdSecOK : Option Bytes → ℚ → Prop
  | none, v => v = 0
  | some n, v => XsdSeconds n v

/-- `s` is an `xs:duration` of `v` seconds: `-?P(nD)?(T(nH)?(nM)?(nS)?)?` with at least one field, and at
least one field after `T`. -/
inductive XsdDuration : Bytes → ℚ → Prop
  | mk (neg : Bool) (D H M S : Option Bytes) (sv : ℚ)
      (hD : ∀ n ∈ D, Digits n) (hH : ∀ n ∈ H, Digits n) (hM : ∀ n ∈ M, Digits n)
      (hS : XsdSecOK S sv)
      (some_field : D ≠ none ∨ H ≠ none ∨ M ≠ none ∨ S ≠ none) :
      XsdDuration
        ((if neg then [ch%'-'] else []) ++ ch%'P' :: (fld ch%'D' D ++
          (if H = none ∧ M = none ∧ S = none then [] else
            ch%'T' :: (fld ch%'H' H ++ fld ch%'M' M ++ fld ch%'S' S))))
        ((if neg then -1 else 1) *
          (fldVal D * 86400 + fldVal H * 3600 + fldVal M * 60 + sv))

/-- Half-away-from-zero rounding of a duration in nanoseconds to seconds in whole milliseconds. -/
def roundMs (d : Int) : ℚ :=
  (if d < 0 then -1 else 1) * ((d.natAbs + 500000) / 1000000 : ℕ) / 1000

/-! ### Grammar of accepted strings -/

/-- Numeral accepted for seconds: digits with at most one dot, at least one digit. `v` is its value. -/
inductive SecNumeral : Bytes → ℚ → Prop
  | int (ip) : Digits ip → SecNumeral ip (decVal ip)
  | frac (ip fp) : (∀ b ∈ ip, isDigit b = true) → (∀ b ∈ fp, isDigit b = true) → ¬ (ip = [] ∧ fp = []) →
      SecNumeral (ip ++ ch%'.' :: fp) (decVal ip + decVal fp / 10 ^ fp.length)

/-- Decimals from here on overflow float64 when rounded. -/
def maxSec : ℚ := 2^1024 - 2^970

/-- An optional seconds field of value `v`. -/
def SecOK : Option Bytes → ℚ → Prop
  | none, v => v = 0
  | some n, v => SecNumeral n v ∧ v < maxSec

/-- Where the `T` stands: nowhere, before the day field, after the day field. -/
inductive TPos | absent | beforeD | afterD
  deriving DecidableEq

/-- The fields of an accepted duration string. -/
structure Fields where
  D : Option Bytes
  H : Option Bytes
  M : Option Bytes
  S : Option Bytes
  sv : ℚ            -- value of the seconds field
  t : TPos

/-- The text of the fields. -/
def Fields.text (f : Fields) : Bytes :=
  ch%'P' :: ((if f.t = .beforeD then [ch%'T'] else []) ++ fld ch%'D' f.D ++
    (if f.t = .afterD then [ch%'T'] else []) ++ fld ch%'H' f.H ++ fld ch%'M' f.M ++ fld ch%'S' f.S)

/-- The grammar: integers are digit strings below 2^64, seconds are a decimal numeral below the float64
overflow threshold, hours/minutes/seconds need a `T`, at least one field. -/
structure Fields.Valid (f : Fields) : Prop where
  hD : ∀ n ∈ f.D, Digits n ∧ decVal n < 2^64
  hH : ∀ n ∈ f.H, Digits n ∧ decVal n < 2^64
  hM : ∀ n ∈ f.M, Digits n ∧ decVal n < 2^64
  hS : SecOK f.S f.sv
  needT : f.H ≠ none ∨ f.M ≠ none ∨ f.S ≠ none → f.t ≠ .absent
  any : f.D ≠ none ∨ f.H ≠ none ∨ f.M ≠ none ∨ f.S ≠ none

/-- Nanoseconds denoted by the fields (a rational: the seconds numeral may be arbitrarily precise). -/
def Fields.nanos (f : Fields) : ℚ :=
  fldVal f.D * 86400000000000 + fldVal f.H * 3600000000000 + fldVal f.M * 60000000000 + f.sv * 1000000000

end Verif.DurationSpec
