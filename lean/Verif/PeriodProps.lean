import Verif.Period
import Verif.PeriodSpec
import Mathlib.Tactic.ByContra
import Mathlib.Data.List.Nodup

/-
Theorems C07-C12 about period timelines.
-/
namespace Verif.Period

open Verif PeriodSpec

theorem findIdx_iff (p : Addr) (l : List Addr) (k n : Nat) :
    findIdx p l k = some n ↔ k ≤ n ∧ FirstAt p l (n - k) := by
  induction l generalizing k with
  | nil => simp [findIdx, FirstAt]
  | cons q qs ih =>
    unfold findIdx
    by_cases hq : q = p
    · subst hq
      simp only [if_true, Option.some.injEq]
      constructor
      · rintro rfl; simp [FirstAt]
      · rintro ⟨hk, h1, h2⟩
        by_contra hne
        exact h2 0 (by omega) (by simp)
    · rw [if_neg hq, ih]
      constructor
      · rintro ⟨hk, h1, h2⟩
        obtain ⟨d, hd⟩ : ∃ d, n - k = d + 1 := ⟨n - k - 1, by omega⟩
        have hd' : n - (k+1) = d := by omega
        rw [hd'] at h1 h2
        refine ⟨by omega, ?_, ?_⟩
        · rw [hd]; simpa using h1
        · intro j hj
          cases j with
          | zero => simp [hq]
          | succ j => simpa using h2 j (by omega)
      · rintro ⟨hk, h1, h2⟩
        have hne : n - k ≠ 0 := by
          intro h0; rw [h0] at h1; simp at h1; exact hq h1
        obtain ⟨d, hd⟩ : ∃ d, n - k = d + 1 := ⟨n - k - 1, by omega⟩
        have hd' : n - (k+1) = d := by omega
        rw [hd] at h1 h2
        refine ⟨by omega, ?_, ?_⟩
        · rw [hd']; simpa using h1
        · intro j hj
          rw [hd'] at hj
          simpa using h2 (j+1) (by omega)

theorem findIdx_none (p : Addr) (l : List Addr) (k : Nat) : findIdx p l k = none ↔ p ∉ l := by
  induction l generalizing k with
  | nil => simp [findIdx]
  | cons q qs ih =>
    unfold findIdx
    by_cases hq : q = p
    · simp [hq]
    · rw [if_neg hq, ih]; simp [Ne.symm hq]

/-- C12: `GetIndex` is the first position of the same object in the parent's list, and the two errors are
exactly "no parent" and "not listed". -/
theorem C12_getIndex (h : Heap) (p : Addr) :
    (∀ i, getIndex h p = .ok i ↔
      ∃ m, (h.period p).parent = some m ∧ FirstAt p (h.mpd m).periods i) ∧
    (getIndex h p = .error .parentNotSet ↔ (h.period p).parent = none) ∧
    (getIndex h p = .error .periodNotFound ↔
      ∃ m, (h.period p).parent = some m ∧ p ∉ (h.mpd m).periods) ∧
    (∀ e, getIndex h p = .error e → e = .parentNotSet ∨ e = .periodNotFound) := by
  unfold getIndex
  cases hm : (h.period p).parent with
  | none => simp
  | some m =>
    cases hf : findIdx p (h.mpd m).periods 0 with
    | none =>
      have hn := (findIdx_none _ _ _).1 hf
      simp [hf, hn]
      intro i hi
      exact hn (List.mem_of_getElem? hi.1)
    | some i =>
      have hi := (findIdx_iff _ _ _ _).1 hf
      have hmem : p ∈ (h.mpd m).periods := List.mem_of_getElem? hi.2.1
      simp [hf, hmem]
      intro j
      constructor
      · rintro rfl; exact hi.2
      · intro hj
        have := (findIdx_iff p (h.mpd m).periods 0 j).2 ⟨by omega, hj⟩
        rw [hf] at this; simpa using this

/-- All periods listed by MPD `m` have `m` as parent. -/
def WellLinked (h : Heap) (m : Addr) : Prop :=
  ∀ p ∈ (h.mpd m).periods, (h.period p).parent = some m

/-- The list of start/duration pairs of an MPD, for the specification. -/
def entries (h : Heap) (m : Addr) : List Entry :=
  (h.mpd m).periods.map fun p => ((h.period p).start, (h.period p).dur)

/-- The MPD is static: no type attribute, or type "static". -/
def isStatic (h : Heap) (m : Addr) : Bool :=
  match (h.mpd m).typ with
  | none => true
  | some t => t == b!"static"

theorem isStatic_iff (h : Heap) (m : Addr) :
    isStatic h m = true ↔ (h.mpd m).getType = staticType := by
  unfold isStatic MpdObj.getType staticType
  cases (h.mpd m).typ <;> simp

theorem entries_get (h : Heap) (m i p : Nat) (hp : (h.mpd m).periods[i]? = some p) :
    (entries h m)[i]? = some ((h.period p).start, (h.period p).dur) := by
  simp [entries, hp]

theorem getIndex_linked {h : Heap} {m p : Addr} (hl : WellLinked h m) (hp : p ∈ (h.mpd m).periods) :
    ∃ i, getIndex h p = .ok i ∧ FirstAt p (h.mpd m).periods i := by
  have hpar := hl p hp
  cases hg : getIndex h p with
  | ok i =>
    obtain ⟨m', hm', hf⟩ := ((C12_getIndex h p).1 i).1 hg
    rw [hpar] at hm'; cases hm'
    exact ⟨i, rfl, hf⟩
  | error e =>
    obtain ⟨-, h1, h2, h3⟩ := C12_getIndex h p
    rcases h3 e hg with rfl | rfl
    · rw [h1.1 hg] at hpar; cases hpar
    · obtain ⟨m', hm', hn⟩ := h2.1 hg
      rw [hpar] at hm'; cases hm'
      exact absurd hp hn

/-- Result of `GetStart` for the period object whose first position is `i`: a value exactly as the
specification says, otherwise an unknown-start error (possibly wrapped). -/
def StartOK (h : Heap) (m : Addr) (i : Nat) : Except Err Int → Prop
  | .ok v => ∀ w, StartIs (isStatic h m) (entries h m) i w ↔ w = v
  | .error e => e.is .unknownStart = true ∧ ∀ w, ¬ StartIs (isStatic h m) (entries h m) i w

/-- Two positions holding the same object have the same attributes, so a chain through a period that is
listed twice is followed from its first position, as `GetStart` does. The specification is therefore
applied at first positions, and requires the predecessor to be at its first position: lists without
repetition. -/
theorem getStart_spec (h : Heap) (m : Addr) (hl : WellLinked h m) (hnd : (h.mpd m).periods.Nodup) :
    ∀ (i p : Nat), (h.mpd m).periods[i]? = some p → ∀ k, i < k →
      ∃ r, getStart h k p = some r ∧ StartOK h m i r := by
  intro i
  induction i with
  | zero =>
    intro p hp k hk
    obtain ⟨k, rfl⟩ : ∃ j, k = j + 1 := ⟨k - 1, by omega⟩
    have hpar := hl p (List.mem_of_getElem? hp)
    have he := entries_get h m 0 p hp
    have hidx : getIndex h p = .ok 0 :=
      ((C12_getIndex h p).1 0).2 ⟨m, hpar, hp, by intro j hj; omega⟩
    unfold getStart
    simp only [hpar]
    cases hs : (h.period p).start with
    | some s =>
      refine ⟨_, rfl, ?_⟩
      intro w
      rw [hs] at he
      constructor
      · rintro (⟨h1⟩ | _ | ⟨-, h1⟩)
        · rw [he] at h1; simp at h1; exact h1.1.symm
        · rw [he] at h1; simp at h1
      · rintro rfl; exact .explicit he
    | none =>
      rw [hs] at he
      simp only [hidx, Nat.lt_irrefl, if_false]
      split
      · rename_i hst
        refine ⟨_, rfl, ?_⟩
        have hst' := (isStatic_iff h m).2 hst
        intro w
        constructor
        · rintro (⟨h1⟩ | _ | ⟨-, h1⟩)
          · rw [he] at h1; simp at h1
          · rfl
        · rintro rfl; exact .first hst' he
      · rename_i hst
        refine ⟨_, rfl, rfl, ?_⟩
        rintro w (⟨h1⟩ | _ | ⟨h2, h1⟩)
        · rw [he] at h1; simp at h1
        · exact hst ((isStatic_iff h m).1 h2)
  | succ i ih =>
    intro p hp k hk
    obtain ⟨k, rfl⟩ : ∃ j, k = j + 1 := ⟨k - 1, by omega⟩
    have hpar := hl p (List.mem_of_getElem? hp)
    have he := entries_get h m (i+1) p hp
    have hlen : i + 1 < (h.mpd m).periods.length := (List.getElem?_eq_some_iff.1 hp).1
    have hidx : getIndex h p = .ok (i+1) := by
      refine ((C12_getIndex h p).1 (i+1)).2 ⟨m, hpar, hp, ?_⟩
      intro j hj hj2
      obtain ⟨hj3, hj4⟩ := List.getElem?_eq_some_iff.1 hj2
      obtain ⟨hp3, hp4⟩ := List.getElem?_eq_some_iff.1 hp
      have := (List.Nodup.getElem_inj_iff hnd).1 (hj4.trans hp4.symm)
      omega
    obtain ⟨q, hq⟩ : ∃ q, (h.mpd m).periods[i]? = some q :=
      ⟨_, List.getElem?_eq_getElem (by omega)⟩
    have heq := entries_get h m i q hq
    unfold getStart
    simp only [hpar]
    cases hs : (h.period p).start with
    | some s =>
      refine ⟨_, rfl, ?_⟩
      intro w
      rw [hs] at he
      constructor
      · rintro (⟨h1⟩ | ⟨h1, -, -⟩ | _)
        · rw [he] at h1; simp at h1; exact h1.1.symm
        · rw [he] at h1; simp at h1
      · rintro rfl; exact .explicit he
    | none =>
      rw [hs] at he
      simp only [hidx, Nat.succ_pos, if_true, Nat.add_sub_cancel, hq]
      cases hd : (h.period q).dur with
      | none =>
        rw [hd] at heq
        refine ⟨_, rfl, rfl, ?_⟩
        rintro w (⟨h1⟩ | ⟨-, h2, -⟩ | _)
        · rw [he] at h1; simp at h1
        · rw [heq] at h2; simp at h2
      | some d =>
        rw [hd] at heq
        obtain ⟨r, hr, hok⟩ := ih q hq k (by omega)
        simp only [hr]
        cases r with
        | error e =>
          refine ⟨_, rfl, hok.1, ?_⟩
          rintro w (⟨h1⟩ | ⟨-, -, h3⟩ | _)
          · rw [he] at h1; simp at h1
          · exact hok.2 _ h3
        | ok s =>
          refine ⟨_, rfl, ?_⟩
          intro w
          constructor
          · rintro (⟨h1⟩ | ⟨-, h2, h3⟩ | _)
            · rw [he] at h1; simp at h1
            · rw [heq] at h2
              simp at h2
              rw [(hok _).1 h3, h2.2]
          · rintro rfl
            exact .chained he heq ((hok s).2 rfl)

/-- A deeper recursion bound does not change a result. -/
theorem getStart_mono (h : Heap) {k : Nat} {p : Addr} {r} (hr : getStart h k p = some r) {k' : Nat}
    (hk : k ≤ k') : getStart h k' p = some r := by
  induction k generalizing p r k' with
  | zero => simp [getStart] at hr
  | succ k ih =>
    obtain ⟨k', rfl⟩ : ∃ j, k' = j + 1 := ⟨k' - 1, by omega⟩
    unfold getStart at hr ⊢
    revert hr
    split
    · exact id
    · split
      · exact id
      · split
        · exact id
        · split
          · split
            · exact id
            · split
              · rename_i prev _ _ d _
                cases hg : getStart h k prev with
                | none => intro hr; simp at hr
                | some r' => rw [ih hg (by omega)]; exact id
              · exact id
          · exact id

/-- C07: in an MPD with parent links set and every period object listed once, `GetStart` of the `i`-th
period gives the start defined by ISO/IEC 23009-1 when there is one, and an error that `errors.Is`
identifies as ErrUnknownPeriodStart when there is none. -/
theorem C07_start_rule (h : Heap) (m : Addr) (hl : WellLinked h m) (hnd : (h.mpd m).periods.Nodup)
    (i p : Nat) (hp : (h.mpd m).periods[i]? = some p) :
    ∃ r, (∀ k, i < k → getStart h k p = some r) ∧
      (∀ v, r = .ok v ↔ StartIs (isStatic h m) (entries h m) i v) ∧
      (∀ e, r = .error e → e.is .unknownStart = true) := by
  obtain ⟨r, hr, hok⟩ := getStart_spec h m hl hnd i p hp (i+1) (by omega)
  refine ⟨r, fun k hk => getStart_mono h hr hk, ?_, ?_⟩
  · intro v
    cases r with
    | ok s => simp only [Except.ok.injEq]; rw [hok v, eq_comm]
    | error e => simp; exact hok.2 v
  · rintro e rfl
    exact hok.1

/-- A dynamic MPD with four periods: explicit start and duration, derived start, derived start, and one
without a derivable start (its predecessor has no duration). -/
def exHeap : Heap where
  mpd := fun _ => { typ := some dynamicType, periods := [10, 11, 12, 13] }
  period := fun a =>
    if a = 10 then { parent := some 0, start := some 5, dur := some 10 }
    else if a = 11 then { parent := some 0, dur := some 20 }
    else { parent := some 0 }
  aset := fun _ => {}
  rep := fun _ => {}
  sub := fun _ => {}

theorem exHeap_linked : WellLinked exHeap 0 := by
  intro p hp
  simp [exHeap] at hp
  rcases hp with rfl | rfl | rfl | rfl <;> rfl

example : getStart exHeap 4 12 = some (.ok 35) := by decide
example : StartIs (isStatic exHeap 0) (entries exHeap 0) 2 35 := by
  obtain ⟨r, h1, h2, -⟩ := C07_start_rule exHeap 0 exHeap_linked (by decide) 2 12 (by decide)
  have h3 := h1 4 (by decide)
  have h4 : getStart exHeap 4 12 = some (.ok 35) := by decide
  rw [h4] at h3
  exact (h2 35).1 (by simpa using h3.symm)
example : getStart exHeap 4 13 = some (.error .unknownStart) := by decide
example : getType exHeap 13 = .ok .earlyAvailable := by decide
example : getDuration exHeap 10 = .ok 10 := by decide

/-- C08: whenever the listed periods have the MPD as parent, `GetStart` returns: recursion as deep as the
position of the period is enough, whatever is or is not set, and also if a period is listed repeatedly. -/
theorem C08_terminates (h : Heap) (m : Addr) (hl : WellLinked h m) (i p : Nat)
    (hp : (h.mpd m).periods[i]? = some p) : ∃ r, ∀ k, i < k → getStart h k p = some r := by
  have main : ∀ n i p, i ≤ n → (h.mpd m).periods[i]? = some p → ∃ r, getStart h (i+1) p = some r := by
    intro n
    induction n with
    | zero =>
      intro i p hi hp
      obtain rfl : i = 0 := by omega
      have hpar := hl p (List.mem_of_getElem? hp)
      have hidx : getIndex h p = .ok 0 :=
        ((C12_getIndex h p).1 0).2 ⟨m, hpar, hp, by intro j hj; omega⟩
      unfold getStart
      simp only [hpar, hidx, Nat.lt_irrefl, if_false]
      split
      · exact ⟨_, rfl⟩
      · split <;> exact ⟨_, rfl⟩
    | succ n ih =>
      intro i p hi hp
      have hpar := hl p (List.mem_of_getElem? hp)
      obtain ⟨j, hj, hf⟩ := getIndex_linked hl (List.mem_of_getElem? hp)
      have hji : j ≤ i := by
        rcases Nat.lt_or_ge i j with h1 | h1
        · exact absurd hp (hf.2 i h1)
        · exact h1
      unfold getStart
      simp only [hpar, hj]
      split
      · exact ⟨_, rfl⟩
      · split
        · rename_i hpos
          have hlen := (List.getElem?_eq_some_iff.1 hf.1).1
          have hq : (h.mpd m).periods[j-1]? = some ((h.mpd m).periods[j-1]'(by omega)) :=
            List.getElem?_eq_getElem (by omega)
          rw [hq]
          simp only
          split
          · obtain ⟨r, hr⟩ := ih (j-1) _ (by omega) hq
            have hr' := getStart_mono h hr (show j - 1 + 1 ≤ i by omega)
            rw [hr']
            cases r <;> exact ⟨_, rfl⟩
          · exact ⟨_, rfl⟩
        · split <;> exact ⟨_, rfl⟩
  obtain ⟨r, hr⟩ := main i i p (Nat.le_refl _) hp
  exact ⟨r, fun k hk => getStart_mono h hr hk⟩

/-- Two MPDs each listing the same two periods in opposite order; each period's parent is the MPD in
which it comes second. -/
def crossed : Heap where
  mpd := fun a => if a = 0 then { periods := [11, 10] } else { periods := [10, 11] }
  period := fun a => { parent := some (if a = 10 then 0 else 1), dur := some 1 }
  aset := fun _ => {}
  rep := fun _ => {}
  sub := fun _ => {}

/-- The hypothesis of C08 is needed: with the parent links of `crossed`, `GetStart` never returns. -/
theorem C08_links_needed (k : Nat) : getStart crossed k 10 = none ∧ getStart crossed k 11 = none := by
  have i10 : getIndex crossed 10 = .ok 1 := by decide
  have i11 : getIndex crossed 11 = .ok 1 := by decide
  induction k with
  | zero => exact ⟨rfl, rfl⟩
  | succ k ih =>
    constructor
    · unfold getStart
      rw [i10]
      simp [crossed]
      have := ih.2
      unfold crossed at this
      simp [this]
    · unfold getStart
      rw [i11]
      simp [crossed]
      have := ih.1
      unfold crossed at this
      simp [this]

theorem nodup_first {l : List Nat} (hnd : l.Nodup) {i p : Nat} (hp : l[i]? = some p) : FirstAt p l i := by
  refine ⟨hp, ?_⟩
  intro j hj hj2
  obtain ⟨hj3, hj4⟩ := List.getElem?_eq_some_iff.1 hj2
  obtain ⟨hp3, hp4⟩ := List.getElem?_eq_some_iff.1 hp
  have := (List.Nodup.getElem_inj_iff hnd).1 (hj4.trans hp4.symm)
  omega

/-- C10: `GetDuration` gives exactly the derived duration; otherwise one of the documented errors, and
ErrNoMediaPresentationDuration exactly when the MPD is static without that attribute. -/
theorem C10_duration_rule (h : Heap) (m : Addr) (hl : WellLinked h m) (hnd : (h.mpd m).periods.Nodup)
    (i p : Nat) (hp : (h.mpd m).periods[i]? = some p) :
    (∀ v, getDuration h p = .ok v ↔ DurIs (isStatic h m) (h.mpd m).mpDur (entries h m) i v) ∧
    (∀ e, getDuration h p = .error e →
      e = if isStatic h m = true ∧ (h.mpd m).mpDur = none then .noMPDur else .unknownDur) := by
  have hpar := hl p (List.mem_of_getElem? hp)
  have he := entries_get h m i p hp
  have hidx : getIndex h p = .ok i := ((C12_getIndex h p).1 i).2 ⟨m, hpar, nodup_first hnd hp⟩
  have hlen : i < (h.mpd m).periods.length := (List.getElem?_eq_some_iff.1 hp).1
  have hex : ∀ v, DurIs (isStatic h m) (h.mpd m).mpDur (entries h m) i v ↔
      (h.period p).dur = some v ∨
      ((h.period p).dur = none ∧ ∃ s, (h.period p).start = some s ∧
        ((∃ e d, (entries h m)[i+1]? = some (some e, d) ∧ (isStatic h m = true → (h.mpd m).mpDur ≠ none) ∧
            v = i64 (e - s)) ∨
         (∃ e, isStatic h m = true ∧ (h.mpd m).mpDur = some e ∧ (entries h m)[i+1]? = none ∧
            v = i64 (e - s)))) := by
    intro v
    constructor
    · rintro (⟨h1⟩ | ⟨h1, h2, h3⟩ | ⟨h1, h2, h3, h4⟩)
      · rw [he] at h1; simp at h1; exact .inl h1.2
      · rw [he] at h1; simp at h1
        exact .inr ⟨h1.2, _, h1.1, .inl ⟨_, _, h2, h3, rfl⟩⟩
      · rw [he] at h3; simp at h3
        exact .inr ⟨h3.2, _, h3.1, .inr ⟨_, h1, h2, h4, rfl⟩⟩
    · rintro (h1 | ⟨h0, s, hs, ⟨e, d, h1, h2, rfl⟩ | ⟨e, h1, h2, h3, rfl⟩⟩)
      · exact .explicit (by rw [he, h1])
      · exact .next (by rw [he, h0, hs]) h1 h2
      · exact .last h1 h2 (by rw [he, h0, hs]) h3
  have hnext : ∀ q, (h.mpd m).periods[i+1]? = some q →
      (entries h m)[i+1]? = some ((h.period q).start, (h.period q).dur) := fun q hq => entries_get h m _ q hq
  have hnone : (h.mpd m).periods[i+1]? = none → (entries h m)[i+1]? = none := by
    intro hq; simp [entries, hq]
  simp only [hex]
  unfold getDuration
  simp only [hpar, hidx, periodAt]
  cases hd : (h.period p).dur with
  | some d => simp
  | none =>
    simp only [reduceCtorEq, false_or, true_and]
    cases hq : (h.mpd m).periods[i+1]? with
    | none =>
      have hlast : (h.mpd m).periods.length ≤ i + 1 := List.getElem?_eq_none_iff.1 hq
      rw [hnone hq]
      have c1 : ¬ ((i : Int) < ((h.mpd m).periods.length : Int) - 1) := by omega
      have c2 : (i : Int) = ((h.mpd m).periods.length : Int) - 1 := by omega
      by_cases hst : isStatic h m = true
      · simp only [(isStatic_iff h m).1 hst, hst, if_true, c1, if_false]
        cases hmp : (h.mpd m).mpDur with
        | none => simp
        | some mp =>
          cases hs : (h.period p).start with
          | none => simp
          | some s => simp [eq_comm]
      · have hst' : ¬ (h.mpd m).getType = staticType := fun hh => hst ((isStatic_iff h m).2 hh)
        simp only [hst', if_false, c2, if_true, hst]
        cases hs : (h.period p).start with
        | none => simp
        | some s => simp
    | some q =>
      have hlt := (List.getElem?_eq_some_iff.1 hq).1
      rw [hnext q hq]
      have c1 : ((i : Int) < ((h.mpd m).periods.length : Int) - 1) := by omega
      have c2 : ¬ (i : Int) = ((h.mpd m).periods.length : Int) - 1 := by omega
      by_cases hst : isStatic h m = true
      · simp only [(isStatic_iff h m).1 hst, hst, if_true, c1, Option.map_some]
        cases hmp : (h.mpd m).mpDur with
        | none => simp
        | some mp =>
          cases hs : (h.period p).start with
          | none => cases hqs : (h.period q).start <;> simp
          | some s => cases hqs : (h.period q).start <;> simp [eq_comm]
      · have hst' : ¬ (h.mpd m).getType = staticType := fun hh => hst ((isStatic_iff h m).2 hh)
        simp only [hst', if_false, c2, hst, Option.map_some]
        cases hs : (h.period p).start with
        | none => simp
        | some s => cases hqs : (h.period q).start <;> simp [eq_comm]

/-- The documented claim that a single-period static MPD has its media presentation duration as period
duration. -/
def C10_single_statement : Prop :=
  ∀ (h : Heap) (m p : Addr) (e : Int), WellLinked h m → (h.mpd m).periods = [p] → isStatic h m = true →
    (h.mpd m).mpDur = some e → (h.period p).dur = none → (h.period p).start = none ∨ (h.period p).start = some 0 →
    IsI64 e → getDuration h p = .ok e

/-- It is false when the period has no start attribute, although `GetStart` is then zero. -/
theorem C10_single_refuted : ¬ C10_single_statement := by
  intro hc
  have := hc { mpd := fun _ => { periods := [1], mpDur := some 5 }, period := fun _ => { parent := some 0 },
               aset := fun _ => {}, rep := fun _ => {}, sub := fun _ => {} } 0 1 5
    (by intro p _; rfl) rfl rfl rfl rfl (.inl rfl) (by unfold IsI64; omega)
  exact absurd this (by decide)

/-- It holds when the period has an explicit zero start. -/
theorem C10_single_partial (h : Heap) (m p : Addr) (e : Int) (hl : WellLinked h m)
    (hp : (h.mpd m).periods = [p]) (hst : isStatic h m = true) (he : (h.mpd m).mpDur = some e)
    (hd : (h.period p).dur = none) (hs : (h.period p).start = some 0) (hi : IsI64 e) :
    getDuration h p = .ok e := by
  have := ((C10_duration_rule h m hl (by simp [hp]) 0 p (by simp [hp])).1 e).2
  apply this
  have h1 : e = i64 (e - 0) := by unfold IsI64 at hi; unfold i64; omega
  rw [h1]
  exact .last hst (by simpa using he) (by simp [entries, hp, hd, hs]) (by simp [entries, hp])

/-- C09: adjacent periods tile the timeline: (a) if the duration of period `i` is derived, start plus
duration is the start of period `i+1`; (b) if period `i+1` has no start attribute and period `i` has a
duration attribute, its start is the start of period `i` plus the duration of period `i`. -/
theorem C09_tiling (h : Heap) (m : Addr) (hl : WellLinked h m) (hnd : (h.mpd m).periods.Nodup)
    (i p q : Nat) (hp : (h.mpd m).periods[i]? = some p) (hq : (h.mpd m).periods[i+1]? = some q)
    (hi : ∀ s ∈ (h.period q).start, IsI64 s)
    (k : Nat) (s d : Int) (hs : getStart h k p = some (.ok s)) (hd : getDuration h p = .ok d)
    (hcase : (h.period p).dur = none ∨ (h.period q).start = none) :
    getStart h (k+1) q = some (.ok (i64 (s + d))) := by
  have hparq := hl q (List.mem_of_getElem? hq)
  have hparp := hl p (List.mem_of_getElem? hp)
  by_cases hqs : (h.period q).start = none
  · -- the start of `q` is derived
    have hidx : getIndex h q = .ok (i+1) := ((C12_getIndex h q).1 _).2 ⟨m, hparq, nodup_first hnd hq⟩
    have hdur : (h.period p).dur = some d := by
      have := ((C10_duration_rule h m hl hnd i p hp).1 d).1 hd
      have hep := entries_get h m i p hp
      have heq := entries_get h m (i+1) q hq
      rcases this with ⟨h1⟩ | ⟨-, h2, -⟩ | ⟨-, -, -, h4⟩
      · rw [hep] at h1; simp at h1; exact h1.2
      · rw [heq, hqs] at h2; simp at h2
      · rw [heq] at h4; simp at h4
    unfold getStart
    simp [hparq, hqs, hidx, hp, hdur, hs]
  · obtain ⟨e, he⟩ := Option.ne_none_iff_exists'.1 hqs
    have hdn : (h.period p).dur = none := by
      rcases hcase with h1 | h1
      · exact h1
      · exact absurd h1 hqs
    have := ((C10_duration_rule h m hl hnd i p hp).1 d).1 hd
    have hep := entries_get h m i p hp
    have heq := entries_get h m (i+1) q hq
    have hi' := hi e (by rw [he]; rfl)
    have key : ∃ s0, (h.period p).start = some s0 ∧ d = i64 (e - s0) := by
      rcases this with ⟨h1⟩ | ⟨h1, h2, -⟩ | ⟨-, -, -, h4⟩
      · rw [hep, hdn] at h1; simp at h1
      · rw [hep] at h1; rw [heq, he] at h2; simp at h1 h2
        exact ⟨_, h1.1, by rw [h2.1]⟩
      · rw [heq] at h4; simp at h4
    obtain ⟨s0, hs0, rfl⟩ := key
    have hk : getStart h k p = some (.ok s0) := by
      cases k with
      | zero => simp [getStart] at hs
      | succ k => unfold getStart; simp [hparp, hs0]
    rw [hk] at hs
    simp at hs
    subst hs
    unfold getStart
    simp only [hparq, he]
    have : i64 (s0 + i64 (e - s0)) = e := by unfold IsI64 at hi'; unfold i64; omega
    rw [this]

/-- The entry exists and has a start attribute. -/
def hasStart : Option Entry → Bool
  | some (some _, _) => true
  | _ => false

/-- The entry exists and has a duration attribute. -/
def hasDur : Option Entry → Bool
  | some (_, some _) => true
  | _ => false

/-- Independent statement of the classification: which attributes are present. -/
def typeSpec (start prevDur ownDur minUpd nextStart dynamic : Bool) : PT :=
  let terminated := ownDur && (minUpd || nextStart)
  match start, prevDur with
  | true, _ => if terminated then .earlyTerminated else .regular
  | false, true => if terminated then .earlyTerminated else .regularOrEarlyTerminated
  | false, false => if dynamic then .earlyAvailable else .regular

/-- C11: for a listed period of a linked MPD `GetType` never fails and is the stated function of six
presence bits; an early-available period has no derivable start. -/
theorem C11_classification (h : Heap) (m : Addr) (hl : WellLinked h m) (hnd : (h.mpd m).periods.Nodup)
    (i p : Nat) (hp : (h.mpd m).periods[i]? = some p) :
    getType h p = .ok (typeSpec (h.period p).start.isSome
      (decide (0 < i) && hasDur (entries h m)[i-1]?)
      (h.period p).dur.isSome (h.mpd m).minUpd.isSome
      (hasStart (entries h m)[i+1]?)
      ((h.mpd m).typ == some b!"dynamic")) ∧
    (getType h p = .ok .earlyAvailable → ∀ v, ¬ StartIs (isStatic h m) (entries h m) i v) := by
  have hpar := hl p (List.mem_of_getElem? hp)
  have hidx : getIndex h p = .ok i := ((C12_getIndex h p).1 i).2 ⟨m, hpar, nodup_first hnd hp⟩
  have hlen : i < (h.mpd m).periods.length := (List.getElem?_eq_some_iff.1 hp).1
  have hprev : hasDur (entries h m)[i-1]?
      = (prevDur h m i).isSome := by
    unfold prevDur periodAt entries
    simp only [List.getElem?_map]
    cases (h.mpd m).periods[i-1]? with
    | none => rfl
    | some q => simp; cases (h.period q).dur <;> rfl
  have hnext : hasStart (entries h m)[i+1]? = nextHasStart h m i := by
    unfold nextHasStart periodAt entries
    simp only [List.getElem?_map]
    cases (h.mpd m).periods[i+1]? with
    | none => rfl
    | some q => simp; cases (h.period q).start <;> rfl
  have hdyn : ((h.mpd m).typ == some b!"dynamic") = decide ((h.mpd m).getType = dynamicType) := by
    unfold MpdObj.getType dynamicType staticType
    cases (h.mpd m).typ with
    | none => decide
    | some t => rw [Bool.eq_iff_iff]; simp
  have h1 : getType h p = .ok (typeSpec (h.period p).start.isSome
      (decide (0 < i) && hasDur (entries h m)[i-1]?)
      (h.period p).dur.isSome (h.mpd m).minUpd.isSome
      (hasStart (entries h m)[i+1]?)
      ((h.mpd m).typ == some b!"dynamic")) := by
    rw [hprev, hnext, hdyn]
    unfold getType
    simp only [hpar, hidx]
    unfold typeSpec isEarlyTerminated
    generalize nextHasStart h m i = nx
    rw [← Option.not_isSome]
    generalize (prevDur h m i).isSome = pd
    generalize (h.period p).start.isSome = st
    generalize (h.period p).dur.isSome = ow
    generalize (h.mpd m).minUpd.isSome = mu
    generalize decide ((h.mpd m).getType = dynamicType) = dy
    have hz : decide (i = 0) = !decide (0 < i) := by
      by_cases hi : i = 0 <;> simp [hi]; omega
    rw [hz]
    generalize decide (0 < i) = z
    revert nx pd st ow mu dy z
    decide
  refine ⟨h1, ?_⟩
  intro hea v hv
  rw [h1] at hea
  simp only [Except.ok.injEq] at hea
  have he := entries_get h m i p hp
  have hst : isStatic h m = true → ((h.mpd m).typ == some b!"dynamic") = false := by
    unfold isStatic
    cases (h.mpd m).typ with
    | none => intro _; decide
    | some t => intro ht; have := beq_iff_eq.1 ht; subst this; decide
  rcases hv with ⟨h2⟩ | ⟨h2, h3, -⟩ | ⟨h2, h3⟩
  · rw [he] at h2; simp at h2
    rw [h2.1] at hea
    unfold typeSpec at hea
    simp only [Option.isSome_some] at hea; split at hea <;> simp at hea
  · rw [he] at h2; simp at h2
    rw [h2.1, Nat.add_sub_cancel, h3] at hea
    unfold typeSpec at hea
    simp only [Option.isSome_none, hasDur, Nat.succ_pos, decide_true, Bool.and_self] at hea
    split at hea <;> simp at hea
  · rw [hst h2] at hea
    rw [he] at h3; simp at h3
    unfold typeSpec at hea
    simp [h3.1] at hea

end Verif.Period
