import Verif.Basic

/-
What a date-time text means, stated without the model: the calendar is given by its successor rule, the text
by its fields.
-/
namespace Verif.DateTimeSpec
open Verif

structure Date where
  y : Int
  m : Nat
  d : Nat
  deriving DecidableEq

/-- Gregorian leap years. -/
def Leap (y : Int) : Prop := (4 ∣ y ∧ ¬ 100 ∣ y) ∨ 400 ∣ y

instance (y : Int) : Decidable (Leap y) := by unfold Leap; infer_instance

/-- Days of the months of an ordinary year. -/
def monthLen : List Nat := [31, 28, 31, 30, 31, 30, 31, 31, 30, 31, 30, 31]

def lastDay (y : Int) (m : Nat) : Nat := monthLen.getD (m - 1) 0 + (if m = 2 ∧ Leap y then 1 else 0)

def Date.Valid (c : Date) : Prop := 1 ≤ c.m ∧ c.m ≤ 12 ∧ 1 ≤ c.d ∧ c.d ≤ lastDay c.y c.m

instance (c : Date) : Decidable c.Valid := by unfold Date.Valid; infer_instance

/-- The day after. -/
def Date.next (c : Date) : Date :=
  if c.d < lastDay c.y c.m then { c with d := c.d + 1 }
  else if c.m < 12 then ⟨c.y, c.m + 1, 1⟩
  else ⟨c.y + 1, 1, 1⟩

/-- `DayNo c n`: the date `c` is `n` days after 1 January 1970. -/
inductive DayNo : Date → Int → Prop
  | epoch : DayNo ⟨1970, 1, 1⟩ 0
  | next {c n} : DayNo c n → DayNo c.next (n + 1)
  | prev {c n} : c.Valid → DayNo c.next (n + 1) → DayNo c n

/-- `s` is the number `n` written with exactly `w` decimal digits. -/
def Digits (w : Nat) (s : Bytes) (n : Nat) : Prop :=
  s.length = w ∧ (∀ b ∈ s, isDigit b = true) ∧ decVal s = n

/-- The zone designator `z` puts local clocks `off` seconds ahead of UTC. -/
inductive Zone : Bytes → Int → Prop
  | utc : Zone (b!"Z") 0
  | plus {hh mm h m} : Digits 2 hh h → Digits 2 mm m → h ≤ 23 → m ≤ 59 →
      Zone (ch%'+' :: (hh ++ ch%':' :: mm)) (3600 * h + 60 * m)
  | minus {hh mm h m} : Digits 2 hh h → Digits 2 mm m → h ≤ 23 → m ≤ 59 →
      Zone (ch%'-' :: (hh ++ ch%':' :: mm)) (-(3600 * h + 60 * m))

/-- The fraction text `f` (empty, or a point followed by digits) means `n / 10^k` seconds. -/
inductive Frac : Bytes → Nat → Nat → Prop
  | none : Frac [] 0 0
  | some {ds : Bytes} : ds ≠ [] → (∀ b ∈ ds, isDigit b = true) → Frac (ch%'.' :: ds) (decVal ds) ds.length

/-- The text is an ISO 8601 date-time naming the instant `sec + num / 10^k` seconds after the epoch. -/
def Denotes (txt : Bytes) (sec : Int) (num k : Nat) : Prop :=
  ∃ (ys ms ds hs mis ss f z : Bytes) (y m d h mi s : Nat) (off day : Int),
    txt = ys ++ (ch%'-' :: (ms ++ (ch%'-' :: (ds ++ (ch%'T' :: (hs ++ (ch%':' :: (mis ++ (ch%':' ::
      (ss ++ (f ++ z))))))))))) ∧
    Digits 4 ys y ∧ Digits 2 ms m ∧ Digits 2 ds d ∧ Digits 2 hs h ∧ Digits 2 mis mi ∧ Digits 2 ss s ∧
    Frac f num k ∧ Zone z off ∧ h ≤ 23 ∧ mi ≤ 59 ∧ s ≤ 59 ∧
    (Date.Valid ⟨y, m, d⟩) ∧ DayNo ⟨y, m, d⟩ day ∧
    sec = 86400 * day + 3600 * h + 60 * mi + s - off

end Verif.DateTimeSpec
