import Verif.PeriodProps

/-!
C59: the names of period types (`/repo/mpd/period.go` 42-63).
-/
namespace Verif.Period
open Verif

/-! ### Model -/

/-- The constants of `PeriodType` (`/repo/mpd/period.go` 45-51); 0 is `PTBad`, which comes with errors. -/
def PT.code : PT → Int
  | .regular => 1
  | .earlyAvailable => 2
  | .earlyTerminated => 3
  | .regularOrEarlyTerminated => 4

/-- `PeriodType.String` (`/repo/mpd/period.go` 53-63), for any int. -/
def ptString (n : Int) : Bytes :=
  if n = 1 then b!"regular" else if n = 2 then b!"early-available" else if n = 3 then b!"early-terminated" else b!"unknown"

/-- `PTBad`. -/
def ptBad : Int := 0

/-! ### Theorems -/

/-- C59 as a user expects it: the name of a type that `GetType` returns without an error is not that of `PTBad`. -/
def C59_statement : Prop := ∀ (h : Heap) (p : Addr) (t : PT), getType h p = .ok t → ptString t.code ≠ ptString ptBad

/-- Two periods, the second of which starts when the first ends. -/
def twoPeriods : Heap where
  mpd _ := { periods := [1, 2] }
  period p := if p = 1 then { parent := some 0, start := some 0, dur := some 10 } else { parent := some 0 }
  aset _ := {}
  rep _ := {}
  sub _ := {}

/-- C59 is false: the second of two periods, without attributes, is called unknown. -/
theorem C59_refuted : ¬ C59_statement := fun h =>
  h twoPeriods 2 .regularOrEarlyTerminated (by decide +kernel) (by decide +kernel)

/-- C59: different types have different names. -/
theorem C59_distinct (t u : PT) (h : ptString t.code = ptString u.code) : t = u := by
  revert h; cases t <;> cases u <;> decide +kernel

/-- C59: a listed period is called unknown exactly if it has no start, the period before it has a duration, and it is not
terminated early: it has no duration, or there are no updates and the next period has no start. -/
theorem C59_unknown_iff (h : Heap) (m : Addr) (hl : WellLinked h m) (hnd : (h.mpd m).periods.Nodup) (i p : Nat)
    (hp : (h.mpd m).periods[i]? = some p) :
    (∃ t, getType h p = .ok t ∧ ptString t.code = b!"unknown") ↔
      (h.period p).start = none ∧ 0 < i ∧ hasDur (entries h m)[i-1]? = true ∧
      ((h.period p).dur = none ∨ (h.mpd m).minUpd = none ∧ hasStart (entries h m)[i+1]? = false) := by
  have hg := (C11_classification h m hl hnd i p hp).1
  have key : ∀ t, ptString (PT.code t) = (b!"unknown") ↔ t = .regularOrEarlyTerminated := by
    intro t; cases t <;> decide +kernel
  have e1 : (h.period p).start = none ↔ (h.period p).start.isSome = false := by simp
  have e2 : (h.period p).dur = none ↔ (h.period p).dur.isSome = false := by simp
  have e3 : (h.mpd m).minUpd = none ↔ (h.mpd m).minUpd.isSome = false := by simp
  have e4 : ∃ b : Bool, decide (0 < i) = b ∧ (0 < i ↔ b = true) := ⟨_, rfl, by simp⟩
  have : (∃ t, getType h p = .ok t ∧ ptString t.code = b!"unknown") ↔ typeSpec (h.period p).start.isSome
      (decide (0 < i) && hasDur (entries h m)[i-1]?) (h.period p).dur.isSome (h.mpd m).minUpd.isSome
      (hasStart (entries h m)[i+1]?) ((h.mpd m).typ == some b!"dynamic") = .regularOrEarlyTerminated := by
    rw [hg]
    constructor
    · rintro ⟨t, ht, hu⟩
      injection ht with ht
      rw [ht]; exact (key t).1 hu
    · intro e
      exact ⟨_, rfl, (key _).2 e⟩
  obtain ⟨b, hb, e4⟩ := e4
  rw [hb] at this
  rw [this, e1, e2, e3, e4]
  generalize (h.period p).start.isSome = a
  generalize hasDur (entries h m)[i-1]? = c
  generalize (h.period p).dur.isSome = d
  generalize (h.mpd m).minUpd.isSome = e
  generalize hasStart (entries h m)[i+1]? = f
  generalize ((h.mpd m).typ == some b!"dynamic") = g
  clear this hg hb e4 e1 e2 e3 key
  cases a <;> cases b <;> cases c <;> cases d <;> cases e <;> cases f <;> cases g <;> decide

/-- The two periods meet the hypotheses; the first is regular. -/
example : WellLinked twoPeriods 0 ∧ (twoPeriods.mpd 0).periods.Nodup ∧ getType twoPeriods 1 = .ok .regular ∧
    getType twoPeriods 2 = .ok .regularOrEarlyTerminated :=
  ⟨fun p hp => by simp [twoPeriods] at hp ⊢; rcases hp with rfl | rfl <;> rfl, by decide +kernel, by decide +kernel, by decide +kernel⟩

end Verif.Period
