import Verif.Basic

/-
Independent specification of the period timeline (ISO/IEC 23009-1, 5.3.2.1) over plain lists.  A period
is a pair of optional start and optional duration, in nanoseconds; sums are int64 sums, as for any Go
duration.  Nothing here refers to the model.
-/
namespace Verif.PeriodSpec

open Verif

/-- Start and duration attributes of one period. -/
abbrev Entry := Option Int × Option Int

/-- `StartIs static ps i v`: in the list `ps` of a static/other presentation, period `i` starts at `v`. -/
inductive StartIs (static : Bool) (ps : List Entry) : Nat → Int → Prop
  | explicit {i s d} : ps[i]? = some (some s, d) → StartIs static ps i s
  | chained {i d e s v} : ps[i+1]? = some (none, e) → ps[i]? = some (s, some d) →
      StartIs static ps i v → StartIs static ps (i+1) (i64 (v + d))
  | first {d} : static = true → ps[0]? = some (none, d) → StartIs static ps 0 0

/-- `DurIs static mp ps i v`: the documented derivation of the duration of period `i`. -/
inductive DurIs (static : Bool) (mp : Option Int) (ps : List Entry) : Nat → Int → Prop
  | explicit {i s d} : ps[i]? = some (s, some d) → DurIs static mp ps i d
  | next {i s e d} : ps[i]? = some (some s, none) → ps[i+1]? = some (some e, d) →
      (static = true → mp ≠ none) → DurIs static mp ps i (i64 (e - s))
  | last {i s e} : static = true → mp = some e → ps[i]? = some (some s, none) → ps[i+1]? = none →
      DurIs static mp ps i (i64 (e - s))

/-- The position of the first occurrence. -/
def FirstAt {α : Type} (x : α) (l : List α) (i : Nat) : Prop :=
  l[i]? = some x ∧ ∀ j < i, l[j]? ≠ some x

end Verif.PeriodSpec
