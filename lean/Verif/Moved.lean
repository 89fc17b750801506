import Verif.ParentsProps
import Verif.PeriodProps

/-!
C96: a period of one manifest that is also put into another one.
-/
namespace Verif.Period

open Verif

/-! ### What is said -/

/-- The index, the type and the duration of a period are the same in two states of the program. -/
def SamePlace (h h' : Heap) (q : Addr) : Prop :=
  getIndex h' q = getIndex h q ∧ getType h' q = getType h q ∧ getDuration h' q = getDuration h q

/-- The start of a period is the same, also whether it is computed at all. -/
def SameStart (h h' : Heap) (q : Addr) : Prop := ∀ k, getStart h' k q = getStart h k q

/-- The periods of a manifest have it as their parent. -/
def Own (h : Heap) (m : Addr) : Prop := ∀ q ∈ (h.mpd m).periods, (h.period q).parent = some m

/-! ### What the answers depend on -/

/-- The manifest and the times of its periods are the same. -/
structure Kept (h h' : Heap) (m : Addr) : Prop where
  mpd : h'.mpd m = h.mpd m
  start : ∀ q ∈ (h.mpd m).periods, (h'.period q).start = (h.period q).start
  dur : ∀ q ∈ (h.mpd m).periods, (h'.period q).dur = (h.period q).dur

theorem kept_start {h h' : Heap} {m : Addr} (hk : Kept h h' m) (i : Nat) :
    (periodAt h' m i).map (·.start) = (periodAt h m i).map (·.start) := by
  unfold periodAt
  rw [hk.mpd]
  cases hi : (h.mpd m).periods[i]? with
  | none => rfl
  | some x => simp [hk.start x (List.mem_of_getElem? hi)]

theorem kept_dur {h h' : Heap} {m : Addr} (hk : Kept h h' m) (i : Nat) :
    (periodAt h' m i).map (·.dur) = (periodAt h m i).map (·.dur) := by
  unfold periodAt
  rw [hk.mpd]
  cases hi : (h.mpd m).periods[i]? with
  | none => rfl
  | some x => simp [hk.dur x (List.mem_of_getElem? hi)]

theorem kept_index {h h' : Heap} {m q : Addr} (hk : Kept h h' m) (h1 : (h.period q).parent = some m)
    (h2 : (h'.period q).parent = some m) : getIndex h' q = getIndex h q := by
  unfold getIndex
  rw [h1, h2]
  dsimp only
  rw [hk.mpd]

theorem kept_place {h h' : Heap} {m q : Addr} (hk : Kept h h' m) (hq : q ∈ (h.mpd m).periods) (h1 : (h.period q).parent = some m)
    (h2 : (h'.period q).parent = some m) : SamePlace h h' q := by
  have hi := kept_index hk h1 h2
  have hs := hk.start q hq
  have hd := hk.dur q hq
  have hn : ∀ i, nextHasStart h' m i = nextHasStart h m i := by
    intro i
    have := kept_start hk (i + 1)
    unfold nextHasStart
    cases ha : periodAt h m (i + 1) <;> cases hb : periodAt h' m (i + 1) <;> rw [ha, hb] at this <;>
      simp at this <;> simp [this]
  have hp : ∀ i, prevDur h' m i = prevDur h m i := by
    intro i
    have := kept_dur hk (i - 1)
    unfold prevDur
    cases ha : periodAt h m (i - 1) <;> cases hb : periodAt h' m (i - 1) <;> rw [ha, hb] at this <;>
      simp at this <;> simp [this]
  have he : ∀ i, isEarlyTerminated h' q m i = isEarlyTerminated h q m i := by
    intro i
    unfold isEarlyTerminated
    rw [hd, hk.mpd, hn]
  refine ⟨hi, ?_, ?_⟩
  · unfold getType
    rw [h1, h2, hi, hs]
    dsimp only
    cases getIndex h q with
    | error e => rfl
    | ok i => simp only [he, hp, hk.mpd]
  · unfold getDuration
    rw [h1, h2, hi, hs, hd]
    cases (h.period q).dur with
    | some d => rfl
    | none =>
      dsimp only
      cases getIndex h q with
      | error e => rfl
      | ok i =>
        simp only [hk.mpd]
        have := kept_start hk (i + 1)
        cases ha : periodAt h m (i + 1) <;> cases hb : periodAt h' m (i + 1) <;> rw [ha, hb] at this <;>
          simp at this <;> simp [this]

/-- The start depends on the periods up to this one. -/
theorem kept_getStart {h h' : Heap} {m : Addr} (hk : Kept h h' m) : ∀ (k n : Nat) (q : Addr), (h.mpd m).periods[n]? = some q →
    (∀ j x, j ≤ n → (h.mpd m).periods[j]? = some x → (h.period x).parent = some m ∧ (h'.period x).parent = some m) →
    getStart h' k q = getStart h k q
  | 0, _, _, _, _ => rfl
  | k + 1, n, q, hq, hp => by
    obtain ⟨h1, h2⟩ := hp n q (Nat.le_refl _) hq
    have hmem := List.mem_of_getElem? hq
    simp only [getStart]
    rw [h1, h2, hk.start q hmem, kept_index hk h1 h2]
    dsimp only
    cases (h.period q).start with
    | some s => rfl
    | none =>
      dsimp only
      cases hi : getIndex h q with
      | error e => rfl
      | ok i =>
        dsimp only
        rw [hk.mpd]
        by_cases hpos : 0 < i
        · rw [if_pos hpos, if_pos hpos]
          have hin : i ≤ n := by
            unfold getIndex at hi
            rw [h1] at hi
            dsimp only at hi
            cases hf : findIdx q (h.mpd m).periods 0 with
            | none => rw [hf] at hi; cases hi
            | some i' =>
              rw [hf] at hi
              injection hi with hi
              subst hi
              obtain ⟨-, hfa⟩ := (findIdx_iff _ _ _ _).1 hf
              by_contra hc
              exact hfa.2 n (by omega) hq
          cases hx : (h.mpd m).periods[i - 1]? with
          | none => rfl
          | some x =>
            dsimp only
            rw [hk.dur x (List.mem_of_getElem? hx)]
            rw [kept_getStart hk k (i - 1) x hx fun j y hj hy => hp j y (by omega) hy]
        · rw [if_neg hpos, if_neg hpos]

/-- The computation of a start does not go behind a start attribute or a missing duration. -/
theorem kept_getStart_from {h h' : Heap} {m : Addr} (hk : Kept h h' m) (hnd : (h.mpd m).periods.Nodup) (c : Nat) (y : Addr)
    (hy : (h.mpd m).periods[c]? = some y)
    (hc : (h.period y).start.isSome = true ∨ ∀ z, 0 < c → (h.mpd m).periods[c - 1]? = some z → (h.period z).dur = none) :
    ∀ (k n : Nat) (q : Addr), c ≤ n → (h.mpd m).periods[n]? = some q →
    (∀ j x, c ≤ j → j ≤ n → (h.mpd m).periods[j]? = some x → (h.period x).parent = some m ∧ (h'.period x).parent = some m) →
    getStart h' k q = getStart h k q
  | 0, _, _, _, _, _ => rfl
  | k + 1, n, q, hcn, hq, hp => by
    obtain ⟨h1, h2⟩ := hp n q hcn (Nat.le_refl _) hq
    have hmem := List.mem_of_getElem? hq
    have hidx : getIndex h q = .ok n := by
      have : findIdx q (h.mpd m).periods 0 = some n := by
        refine (findIdx_iff _ _ _ _).2 ⟨Nat.zero_le _, by simpa using hq, fun j hj e => ?_⟩
        obtain ⟨hj', e1⟩ := List.getElem?_eq_some_iff.1 e
        obtain ⟨hn', e2⟩ := List.getElem?_eq_some_iff.1 hq
        have := (List.Nodup.getElem_inj_iff hnd (hi := hj') (hj := hn')).1 (e1.trans e2.symm)
        omega
      unfold getIndex
      rw [h1]
      dsimp only
      rw [this]
    simp only [getStart]
    rw [h1, h2, hk.start q hmem, kept_index hk h1 h2, hidx]
    dsimp only
    cases hs : (h.period q).start with
    | some s => rfl
    | none =>
      dsimp only
      rw [hk.mpd]
      by_cases hpos : 0 < n
      · rw [if_pos hpos, if_pos hpos]
        cases hx : (h.mpd m).periods[n - 1]? with
        | none => rfl
        | some x =>
          dsimp only
          rw [hk.dur x (List.mem_of_getElem? hx)]
          cases hd : (h.period x).dur with
          | none => rfl
          | some d =>
            have hlt : c ≤ n - 1 := by
              by_contra hlt
              have e : c = n := by omega
              subst e
              rw [hq] at hy
              injection hy with hy
              subst hy
              rcases hc with hc | hc
              · rw [hs] at hc; cases hc
              · have := hc x hpos hx
                rw [hd] at this
                cases this
            dsimp only
            rw [kept_getStart_from hk hnd c y hy hc k (n - 1) x hlt hx fun j x hj hj' => hp j x hj (by omega)]
      · rw [if_neg hpos, if_neg hpos]

theorem kept_all {h h' : Heap} {m : Addr} (hk : Kept h h' m) (h1 : Own h m) (h2 : Own h' m) (q : Addr)
    (hq : q ∈ (h.mpd m).periods) : SamePlace h h' q ∧ SameStart h h' q := by
  obtain ⟨n, hn⟩ := List.getElem?_of_mem hq
  refine ⟨kept_place hk hq (h1 q hq) (h2 q (by rw [hk.mpd]; exact hq)), fun k => kept_getStart hk k n q hn fun j x _ hx => ?_⟩
  have := List.mem_of_getElem? hx
  exact ⟨h1 x this, h2 x (by rw [hk.mpd]; exact this)⟩

theorem append_kept (h : Heap) {m m' p : Addr} (hne : m ≠ m') : Kept h (appendPeriod h m' p) m := by
  refine ⟨?_, ?_, ?_⟩
  · simp [appendPeriod, setPeriodParent, upd, hne]
  · intro q _
    simp only [appendPeriod, setPeriodParent, upd]
    split
    · rename_i e; rw [e]
    · rfl
  · intro q _
    simp only [appendPeriod, setPeriodParent, upd]
    split
    · rename_i e; rw [e]
    · rfl

theorem append_parent (h : Heap) (m p q : Addr) (hq : q ≠ p) : ((appendPeriod h m p).period q).parent = (h.period q).parent := by
  simp [appendPeriod, setPeriodParent, upd, hq]

/-! ### C96 -/

/-- C96, new periods: a period that is not in a manifest can be put into another one without changing anything the first says about
its periods. -/
theorem C96_new (h : Heap) (m m' p : Addr) (hne : m ≠ m') (ho : Own h m) (hp : p ∉ (h.mpd m).periods) :
    ∀ q ∈ (h.mpd m).periods, SamePlace h (appendPeriod h m' p) q ∧ SameStart h (appendPeriod h m' p) q :=
  kept_all (append_kept h hne) ho fun q hq => by
    rw [(append_kept h hne).mpd] at hq
    rw [append_parent h m' p q fun e => hp (e ▸ hq)]
    exact ho q hq

/-- C96, shared periods: if the period is in the first manifest, index, type and duration of the others stay, and the start of those
before it. -/
theorem C96_others (h : Heap) (m m' p : Addr) (hne : m ≠ m') (ho : Own h m) :
    (∀ q ∈ (h.mpd m).periods, q ≠ p → SamePlace h (appendPeriod h m' p) q) ∧
      ∀ (n : Nat) (q : Addr), (h.mpd m).periods[n]? = some q → (∀ j : Nat, j ≤ n → (h.mpd m).periods[j]? ≠ some p) →
        SameStart h (appendPeriod h m' p) q := by
  refine ⟨fun q hq hqp => ?_, fun n q hn hb k => ?_⟩
  · exact kept_place (append_kept h hne) hq (ho q hq) (by rw [append_parent h m' p q hqp]; exact ho q hq)
  · refine kept_getStart (append_kept h hne) k n q hn fun j x hj hx => ?_
    have hxp : x ≠ p := fun e => hb j hj (e ▸ hx)
    have := ho x (List.mem_of_getElem? hx)
    exact ⟨this, by rw [append_parent h m' p x hxp]; exact this⟩

/-- C96, periods behind a shared one: the start stays if there is, behind the shared period and not behind this one, a period with a
start attribute, or one whose predecessor has no duration. -/
theorem C96_behind (h : Heap) (m m' p : Addr) (hne : m ≠ m') (ho : Own h m) (hnd : (h.mpd m).periods.Nodup) (c n : Nat) (hcn : c ≤ n)
    (y q : Addr) (hy : (h.mpd m).periods[c]? = some y) (hq : (h.mpd m).periods[n]? = some q)
    (hp : ∀ j, c ≤ j → j ≤ n → (h.mpd m).periods[j]? ≠ some p)
    (hc : (h.period y).start.isSome = true ∨ ∀ z, 0 < c → (h.mpd m).periods[c - 1]? = some z → (h.period z).dur = none) :
    SameStart h (appendPeriod h m' p) q := fun k => by
  refine kept_getStart_from (append_kept h hne) hnd c y hy hc k n q hcn hq fun j x hj hj' hx => ?_
  have hxp : x ≠ p := fun e => hp j hj hj' (e ▸ hx)
  have := ho x (List.mem_of_getElem? hx)
  exact ⟨this, by rw [append_parent h m' p x hxp]; exact this⟩

/-- C96, the shared period itself: its index is that in the other manifest, and its start, if it has no attribute for it, is the end
of what was the last period there. -/
theorem C96_moved (h : Heap) (m' p r : Addr) (l : List Addr) (hl : (h.mpd m').periods = l ++ [r]) (hp : p ∉ l ++ [r])
    (hs : (h.period p).start = none) (d : Int) (hd : (h.period r).dur = some d) (k : Nat) :
    getIndex (appendPeriod h m' p) p = .ok (l.length + 1) ∧
      ∀ s, getStart (appendPeriod h m' p) k r = some (.ok s) → getStart (appendPeriod h m' p) (k + 1) p = some (.ok (i64 (s + d))) := by
  have hrp : r ≠ p := fun e => hp (by simp [e])
  have hpar : ((appendPeriod h m' p).period p).parent = some m' := by simp [appendPeriod, setPeriodParent, upd]
  have hper : ((appendPeriod h m' p).mpd m').periods = l ++ [r] ++ [p] := by simp [appendPeriod, setPeriodParent, upd, hl]
  have hst : ((appendPeriod h m' p).period p).start = none := by simp [appendPeriod, setPeriodParent, upd, hs]
  have hdr : ((appendPeriod h m' p).period r).dur = some d := by simp [appendPeriod, setPeriodParent, upd, hrp, hd]
  have hidx : getIndex (appendPeriod h m' p) p = .ok (l.length + 1) := by
    have hf : findIdx p (l ++ [r] ++ [p]) 0 = some (l.length + 1) := by
      refine (findIdx_iff _ _ _ _).2 ⟨Nat.zero_le _, ?_, ?_⟩
      · simp
      · intro j hj e
        rw [List.getElem?_append_left (by simp; omega)] at e
        exact hp (List.mem_of_getElem? e)
    unfold getIndex
    rw [hpar]
    dsimp only
    rw [hper, hf]
  refine ⟨hidx, fun s hs' => ?_⟩
  rw [getStart, hpar]
  dsimp only
  rw [hst, hidx]
  dsimp only
  rw [if_pos (Nat.succ_pos _), hper]
  have : (l ++ [r] ++ [p])[l.length + 1 - 1]? = some r := by simp
  rw [this]
  dsimp only
  rw [hdr]
  dsimp only
  rw [hs']

/-- C96, repair: after `SetParents` of the first manifest it says what it said before. -/
theorem C96_repair (h : Heap) (m m' p : Addr) (hne : m ≠ m') (ho : Own h m) :
    ∀ q ∈ (h.mpd m).periods, SamePlace h (mpdSetParents (appendPeriod h m' p) m) q ∧
      SameStart h (mpdSetParents (appendPeriod h m' p) m) q := by
  obtain ⟨hsame, hpar, -⟩ := C13_setParents (appendPeriod h m' p) m
  have hk := append_kept h hne (p := p)
  have hk' : Kept h (mpdSetParents (appendPeriod h m' p) m) m := by
    refine ⟨by rw [hsame.mpd, hk.mpd], fun q hq => ?_, fun q hq => ?_⟩
    · rw [← hk.start q hq]
      have := congrArg PeriodObj.start (hsame.period q)
      exact this
    · rw [← hk.dur q hq]
      have := congrArg PeriodObj.dur (hsame.period q)
      exact this
  refine kept_all hk' ho fun q hq => hpar q ?_
  rw [hsame.mpd] at hq
  exact hq

theorem applyAll_below (ws : List W) (h : Heap) (hw : ∀ w ∈ ws, ∀ p m, w ≠ .period p m) :
    (applyAll h ws).period = h.period ∧ (applyAll h ws).mpd = h.mpd := by
  induction ws generalizing h with
  | nil => exact ⟨rfl, rfl⟩
  | cons w ws ih =>
    obtain ⟨h1, h2⟩ := ih (applyW h w) fun w hw' => hw w (by simp [hw'])
    have hww := hw w (by simp)
    have : (applyW h w).period = h.period ∧ (applyW h w).mpd = h.mpd := by
      cases w with
      | period p m => exact absurd rfl (hww p m)
      | _ => exact ⟨rfl, rfl⟩
    exact ⟨h1.trans this.1, h2.trans this.2⟩

/-- C96, copies: a clone of a period can be put into another manifest without changing anything the first says. -/
theorem C96_clone (h h1 : Heap) (φ : Addr → Addr) (R old : Addr → Prop) (hc : DeepCopy h h1 φ R old) (m m' p : Addr) (hne : m ≠ m')
    (ho : Own h m) (hm : old m) (hq : ∀ q ∈ (h.mpd m).periods, old q) (hp : R p) :
    ∀ q ∈ (h.mpd m).periods, SamePlace h (appendPeriod (clonePeriod h1 (φ p)) m' (φ p)) q ∧
      SameStart h (appendPeriod (clonePeriod h1 (φ p)) m' (φ p)) q := by
  have hb : (clonePeriod h1 (φ p)).period = h1.period ∧ (clonePeriod h1 (φ p)).mpd = h1.mpd := by
    unfold clonePeriod
    rw [periodSetParents_eq]
    refine applyAll_below _ _ fun w hw x y e => ?_
    subst e
    obtain ⟨a, -, e | ⟨r, -, e | ⟨s, -, e⟩⟩⟩ := (mem_periodW _ _ _).1 hw <;> cases e
  have hk := append_kept (clonePeriod h1 (φ p)) hne (p := φ p)
  have hmm : (clonePeriod h1 (φ p)).mpd m = h.mpd m := by rw [hb.2, hc.mpd_old m hm]
  have hper : ∀ q ∈ (h.mpd m).periods, (clonePeriod h1 (φ p)).period q = h.period q := fun q h' => by
    rw [hb.1, hc.period_old q (hq q h')]
  refine kept_all ⟨by rw [hk.mpd, hmm], fun q h' => ?_, fun q h' => ?_⟩ ho fun q h' => ?_
  · rw [hk.start q (by rw [hmm]; exact h'), hper q h']
  · rw [hk.dur q (by rw [hmm]; exact h'), hper q h']
  · rw [hk.mpd, hmm] at h'
    have hn : q ≠ φ p := fun e => hc.fresh p hp (e ▸ hq q h')
    rw [append_parent _ _ _ _ hn, hper q h']
    exact ho q h'

/-! ### Runs of the program -/

/-- The run appends no period to the manifest. -/
def Apart (m : Addr) (ops : List Op) : Prop := ∀ m' p, Op.period m' p ∈ ops → m' ≠ m

theorem run_kept (m : Addr) : ∀ (ops : List Op) (h : Heap), Apart m ops → Kept h (ops.foldl Op.run h) m
  | [], h, _ => ⟨rfl, fun _ _ => rfl, fun _ _ => rfl⟩
  | op :: ops, h, ha => by
    have h1 : Kept h (op.run h) m := by
      cases op with
      | period m' p => exact append_kept h (Ne.symm (ha m' p (by simp)))
      | aset p a =>
        refine ⟨rfl, fun q _ => ?_, fun q _ => ?_⟩ <;> simp only [Op.run, appendASet, setASetParent, upd] <;> split <;> simp_all
      | rep a r => exact ⟨rfl, fun _ _ => rfl, fun _ _ => rfl⟩
      | sub r s => exact ⟨rfl, fun _ _ => rfl, fun _ _ => rfl⟩
    have h2 := run_kept m ops (op.run h) fun m' p hm => ha m' p (by simp [hm])
    refine ⟨h2.mpd.trans h1.mpd, fun q hq => ?_, fun q hq => ?_⟩
    · exact (h2.start q (by rw [h1.mpd]; exact hq)).trans (h1.start q hq)
    · exact (h2.dur q (by rw [h1.mpd]; exact hq)).trans (h1.dur q hq)

theorem run_period_parent (q : Addr) : ∀ (ops : List Op) (h : Heap), (∀ m', Op.period m' q ∉ ops) →
    ((ops.foldl Op.run h).period q).parent = (h.period q).parent
  | [], _, _ => rfl
  | op :: ops, h, ha => by
    rw [List.foldl_cons, run_period_parent q ops (op.run h) fun m' hm => ha m' (by simp [hm])]
    cases op with
    | period m' p => exact append_parent h m' p q fun e => ha m' (by simp [e])
    | aset p a =>
      simp only [Op.run, appendASet, setASetParent, upd]
      split <;> simp_all
    | rep a r => rfl
    | sub r s => rfl

/-- C96, for all runs: whatever is appended anywhere, in any order, what a manifest says about its periods stays the same if nothing is
appended to it and none of its periods to another. -/
theorem C96_run (h : Heap) (m : Addr) (ops : List Op) (ho : Own h m) (ha : Apart m ops)
    (hp : ∀ m' p, Op.period m' p ∈ ops → p ∉ (h.mpd m).periods) :
    ∀ q ∈ (h.mpd m).periods, SamePlace h (ops.foldl Op.run h) q ∧ SameStart h (ops.foldl Op.run h) q :=
  kept_all (run_kept m ops h ha) ho fun q hq => by
    rw [(run_kept m ops h ha).mpd] at hq
    rw [run_period_parent q ops h fun m' hm => hp m' q hm hq]
    exact ho q hq

/-- C96, for all runs, also if periods of the manifest were appended to others: after `SetParents` it says the same as before. -/
theorem C96_run_repair (h : Heap) (m : Addr) (ops : List Op) (ho : Own h m) (ha : Apart m ops) :
    ∀ q ∈ (h.mpd m).periods, SamePlace h (mpdSetParents (ops.foldl Op.run h) m) q ∧
      SameStart h (mpdSetParents (ops.foldl Op.run h) m) q := by
  obtain ⟨hsame, hpar, -⟩ := C13_setParents (ops.foldl Op.run h) m
  have hk := run_kept m ops h ha
  refine kept_all ⟨by rw [hsame.mpd, hk.mpd], fun q hq => ?_, fun q hq => ?_⟩ ho fun q hq => hpar q (by rw [hsame.mpd] at hq; exact hq)
  · rw [← hk.start q hq]
    have := congrArg PeriodObj.start (hsame.period q)
    exact this
  · rw [← hk.dur q hq]
    have := congrArg PeriodObj.dur (hsame.period q)
    exact this

/-- Two manifests: 0 with the periods 10 and 11, and 1 with the period 20; durations of 5, 5 and 10 seconds, no starts. -/
def twoHeap : Heap :=
  { mpd := fun m => if m = 0 then { periods := [10, 11] } else if m = 1 then { periods := [20] } else {}
    period := fun p => if p = 10 then { parent := some 0, dur := some 5000000000 }
      else if p = 11 then { parent := some 0, dur := some 5000000000 }
      else if p = 20 then { parent := some 1, dur := some 10000000000 } else {}
    aset := fun _ => {}
    rep := fun _ => {}
    sub := fun _ => {} }

theorem two_own : Own twoHeap 0 ∧ Own twoHeap 1 := by
  constructor <;> intro q hq <;> simp [twoHeap] at hq ⊢
  · rcases hq with rfl | rfl <;> rfl
  · subst hq; rfl

/-- Without the condition that the period is new it is false: after `m1.AppendPeriod(m0.Periods[0])` the second period of `m0` starts at
15 seconds in place of 5. -/
theorem C96_refuted : ¬ ∀ (h : Heap) (m m' p : Addr), m ≠ m' → Own h m → Own h m' →
    ∀ q ∈ (h.mpd m).periods, SameStart h (appendPeriod h m' p) q := by
  intro hall
  have h := hall twoHeap 0 1 10 (by decide) two_own.1 two_own.2 11 (by decide) 3
  exact absurd h (by decide +kernel)

example : getStart twoHeap 3 11 = some (.ok 5000000000) ∧ getStart (appendPeriod twoHeap 1 10) 3 11 = some (.ok 15000000000) := by
  decide +kernel

/-- A new period for the second manifest. -/
example : SameStart twoHeap (appendPeriod twoHeap 1 12) 11 :=
  (C96_new twoHeap 0 1 12 (by decide) two_own.1 (by decide) 11 (by decide)).2

/-- The second period in the other manifest: the first stays where it is. -/
example : SameStart twoHeap (appendPeriod twoHeap 1 11) 10 :=
  (C96_others twoHeap 0 1 11 (by decide) two_own.1).2 0 10 rfl (fun j hj => by
    have : j = 0 := by omega
    subst this
    decide)

/-- The first period in the other manifest, but the second one has a start attribute. -/
def fixedHeap : Heap :=
  { twoHeap with period := upd twoHeap.period 11 { parent := some 0, start := some 5000000000 } }

example : SameStart fixedHeap (appendPeriod fixedHeap 1 10) 11 :=
  C96_behind fixedHeap 0 1 10 (by decide)
    (fun q hq => by
      have : q = 10 ∨ q = 11 := by simpa [fixedHeap, twoHeap] using hq
      rcases this with rfl | rfl <;> rfl)
    (by decide) 1 1 (Nat.le_refl _) 11 11 rfl rfl
    (fun j h1 h2 => by
      have : j = 1 := by omega
      subst this
      decide) (.inl rfl)

/-- The shared period. -/
example : getStart (appendPeriod twoHeap 1 10) 2 10 = some (.ok 10000000000) :=
  (C96_moved twoHeap 1 10 20 [] rfl (by decide) rfl 10000000000 rfl 1).2 0 (by decide +kernel)

/-- The first manifest after `SetParents`. -/
example : SameStart twoHeap (mpdSetParents (appendPeriod twoHeap 1 10) 0) 11 :=
  (C96_repair twoHeap 0 1 10 (by decide) two_own.1 11 (by decide)).2

/-- `SetParents` of the first manifest is no help for the second: its second period then has the index 0 and starts at 0. -/
example : ((mpdSetParents (appendPeriod twoHeap 1 10) 0).mpd 1).periods = [20, 10] ∧
    getIndex (mpdSetParents (appendPeriod twoHeap 1 10) 0) 10 = .ok 0 ∧
    getStart (mpdSetParents (appendPeriod twoHeap 1 10) 0) 3 10 = some (.ok 0) := by
  refine ⟨by decide +kernel, by decide +kernel, by decide +kernel⟩

/-- The state after a deep copy of the period 10 to 110. -/
def copiedHeap : Heap :=
  { twoHeap with period := upd twoHeap.period 110 { dur := some 5000000000 } }

theorem copied : DeepCopy twoHeap copiedHeap (· + 100) (· = 10) (· < 100) := by
  constructor
  · intro x y h; simpa using h
  · rintro x rfl; decide
  · rintro x rfl; decide
  · intro x _; rfl
  · intro x hx
    have : x ≠ 110 := fun e => absurd hx (by rw [e]; decide)
    simp [copiedHeap, upd, this]
  · intro x _; rfl
  · intro x _; rfl
  · intro x _; rfl
  · rintro x rfl; decide
  · rintro x rfl; decide
  · rintro x rfl; decide
  · rintro x rfl; decide
  · rintro x rfl; decide

/-- A clone of the first period in the other manifest. -/
example : SameStart twoHeap (appendPeriod (clonePeriod copiedHeap 110) 1 110) 11 :=
  (C96_clone twoHeap copiedHeap _ _ _ copied 0 1 10 (by decide) two_own.1 (by decide)
    (fun q hq => by
      simp [twoHeap] at hq
      rcases hq with rfl | rfl <;> decide) rfl 11 (by decide)).2

/-- A run that leaves the first manifest alone, and one that shares its first period. -/
example : SameStart twoHeap ([Op.period 1 12, .aset 12 5, .rep 5 6, .period 2 12].foldl Op.run twoHeap) 11 :=
  (C96_run twoHeap 0 _ two_own.1 (by intro m' p h; simp at h; obtain ⟨rfl, -⟩ | ⟨rfl, -⟩ := h <;> decide)
    (by intro m' p h; simp at h; obtain ⟨-, rfl⟩ | ⟨-, rfl⟩ := h <;> decide) 11 (by decide)).2

example : SameStart twoHeap (mpdSetParents ([Op.period 1 10, .period 2 10, .aset 10 5].foldl Op.run twoHeap) 0) 11 :=
  (C96_run_repair twoHeap 0 _ two_own.1 (by intro m' p h; simp at h; obtain ⟨rfl, -⟩ | ⟨rfl, -⟩ := h <;> decide) 11 (by decide)).2

end Verif.Period
