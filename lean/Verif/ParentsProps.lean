import Verif.Period
import Mathlib.Data.List.Basic
import Mathlib.Tactic.ByContra

/-
Theorems C13 (parent links) and C14 (clones).
-/
namespace Verif.Period

open Verif

/-- One parent-link write. -/
inductive W
  | period (p m : Addr) | aset (a p : Addr) | rep (r a : Addr) | sub (s r : Addr)

def applyW (h : Heap) : W → Heap
  | .period p m => setPeriodParent h p m
  | .aset a p => setASetParent h a p
  | .rep r a => setRepParent h r a
  | .sub s r => setSubParent h s r

def applyAll (h : Heap) (ws : List W) : Heap := ws.foldl applyW h

/-- Everything except the parent links is the same. -/
structure Same (h h' : Heap) : Prop where
  mpd : h'.mpd = h.mpd
  period : ∀ x, { h'.period x with parent := none } = { h.period x with parent := none }
  aset : ∀ x, { h'.aset x with parent := none } = { h.aset x with parent := none }
  rep : ∀ x, { h'.rep x with parent := none } = { h.rep x with parent := none }
  sub : ∀ x, { h'.sub x with parent := none } = { h.sub x with parent := none }

theorem Same.refl (h : Heap) : Same h h := ⟨rfl, fun _ => rfl, fun _ => rfl, fun _ => rfl, fun _ => rfl⟩

theorem Same.trans {a b c : Heap} (h1 : Same a b) (h2 : Same b c) : Same a c :=
  ⟨h2.mpd.trans h1.mpd, fun x => (h2.period x).trans (h1.period x), fun x => (h2.aset x).trans (h1.aset x),
   fun x => (h2.rep x).trans (h1.rep x), fun x => (h2.sub x).trans (h1.sub x)⟩

theorem Same.asets {h h' : Heap} (s : Same h h') (x) : (h'.period x).asets = (h.period x).asets := by
  have := congrArg PeriodObj.asets (s.period x); exact this
theorem Same.reps {h h' : Heap} (s : Same h h') (x) : (h'.aset x).reps = (h.aset x).reps := by
  have := congrArg ASetObj.reps (s.aset x); exact this
theorem Same.subs {h h' : Heap} (s : Same h h') (x) : (h'.rep x).subs = (h.rep x).subs := by
  have := congrArg RepObj.subs (s.rep x); exact this

theorem same_applyW (h : Heap) (w : W) : Same h (applyW h w) := by
  cases w <;> refine ⟨rfl, ?_, ?_, ?_, ?_⟩ <;> intro x <;>
    simp only [applyW, setPeriodParent, setASetParent, setRepParent, setSubParent, upd] <;>
    (first | rfl | (split <;> simp_all))

theorem same_applyAll (h : Heap) (ws : List W) : Same h (applyAll h ws) := by
  induction ws generalizing h with
  | nil => exact .refl h
  | cons w ws ih => exact (same_applyW h w).trans (ih _)

theorem applyAll_append (h : Heap) (a b : List W) : applyAll h (a ++ b) = applyAll (applyAll h a) b := by
  simp [applyAll]

def repW (h : Heap) (r : Addr) : List W := (h.rep r).subs.map (W.sub · r)
def asetW (h : Heap) (a : Addr) : List W := (h.aset a).reps.flatMap fun r => W.rep r a :: repW h r
def periodW (h : Heap) (p : Addr) : List W := (h.period p).asets.flatMap fun a => W.aset a p :: asetW h a
def mpdW (h : Heap) (m : Addr) : List W := (h.mpd m).periods.flatMap fun p => W.period p m :: periodW h p

theorem repW_same {h h' : Heap} (s : Same h h') (r) : repW h' r = repW h r := by
  simp [repW, s.subs]
theorem asetW_same {h h' : Heap} (s : Same h h') (a) : asetW h' a = asetW h a := by
  simp [asetW, s.reps, repW_same s]
theorem periodW_same {h h' : Heap} (s : Same h h') (p) : periodW h' p = periodW h p := by
  simp [periodW, s.asets, asetW_same s]

theorem repSetParents_eq (h : Heap) (r) : repSetParents h r = applyAll h (repW h r) := by
  unfold repSetParents applyAll repW
  rw [List.foldl_map]
  rfl

theorem fold_eq (h0 : Heap) (f : Heap → Addr → Heap) (g : Addr → List W)
    (hf : ∀ h x, Same h0 h → f h x = applyAll h (g x)) (l : List Addr) (h : Heap) (hs : Same h0 h) :
    l.foldl f h = applyAll h (l.flatMap g) := by
  induction l generalizing h with
  | nil => rfl
  | cons x l ih =>
    rw [List.foldl_cons, hf h x hs, ih _ (hs.trans (same_applyAll _ _)), List.flatMap_cons, applyAll_append]

theorem asetSetParents_eq (h : Heap) (a) : asetSetParents h a = applyAll h (asetW h a) := by
  unfold asetSetParents asetW
  refine fold_eq h _ _ ?_ _ h (.refl h)
  intro h1 r hs
  have := repW_same (hs.trans (same_applyW h1 (.rep r a))) r
  rw [repSetParents_eq]
  simp only [applyW] at this
  rw [this]; rfl

theorem periodSetParents_eq (h : Heap) (p) : periodSetParents h p = applyAll h (periodW h p) := by
  unfold periodSetParents periodW
  refine fold_eq h _ _ ?_ _ h (.refl h)
  intro h1 a hs
  have := asetW_same (hs.trans (same_applyW h1 (.aset a p))) a
  rw [asetSetParents_eq]
  simp only [applyW] at this
  rw [this]; rfl

theorem mpdSetParents_eq (h : Heap) (m) : mpdSetParents h m = applyAll h (mpdW h m) := by
  unfold mpdSetParents mpdW
  refine fold_eq h _ _ ?_ _ h (.refl h)
  intro h1 p hs
  have := periodW_same (hs.trans (same_applyW h1 (.period p m))) p
  rw [periodSetParents_eq]
  simp only [applyW] at this
  rw [this]; rfl

/-! ### Last write wins -/

section
variable (h : Heap) (ws : List W)

theorem period_parent (p m : Addr) (h1 : W.period p m ∈ ws ∨ (h.period p).parent = some m)
    (h2 : ∀ m', W.period p m' ∈ ws → m' = m) : ((applyAll h ws).period p).parent = some m := by
  induction ws generalizing h with
  | nil => simpa [applyAll] using h1
  | cons w ws ih =>
    refine ih (applyW h w) ?_ (fun m' hm => h2 m' (List.mem_cons_of_mem _ hm))
    rcases h1 with h1 | h1
    · rcases List.mem_cons.1 h1 with rfl | h1
      · right; simp [applyW, setPeriodParent, upd]
      · exact .inl h1
    · right
      cases w with
      | period p' m' =>
        by_cases hp : p = p'
        · subst hp
          have := h2 m' (by simp)
          simp [applyW, setPeriodParent, upd, this]
        · simp [applyW, setPeriodParent, upd, hp, h1]
      | _ => simpa [applyW, setASetParent, setRepParent, setSubParent] using h1

theorem aset_parent (p m : Addr) (h1 : W.aset p m ∈ ws ∨ (h.aset p).parent = some m)
    (h2 : ∀ m', W.aset p m' ∈ ws → m' = m) : ((applyAll h ws).aset p).parent = some m := by
  induction ws generalizing h with
  | nil => simpa [applyAll] using h1
  | cons w ws ih =>
    refine ih (applyW h w) ?_ (fun m' hm => h2 m' (List.mem_cons_of_mem _ hm))
    rcases h1 with h1 | h1
    · rcases List.mem_cons.1 h1 with rfl | h1
      · right; simp [applyW, setASetParent, upd]
      · exact .inl h1
    · right
      cases w with
      | aset p' m' =>
        by_cases hp : p = p'
        · subst hp
          have := h2 m' (by simp)
          simp [applyW, setASetParent, upd, this]
        · simp [applyW, setASetParent, upd, hp, h1]
      | _ => simpa [applyW, setPeriodParent, setRepParent, setSubParent] using h1

theorem rep_parent (p m : Addr) (h1 : W.rep p m ∈ ws ∨ (h.rep p).parent = some m)
    (h2 : ∀ m', W.rep p m' ∈ ws → m' = m) : ((applyAll h ws).rep p).parent = some m := by
  induction ws generalizing h with
  | nil => simpa [applyAll] using h1
  | cons w ws ih =>
    refine ih (applyW h w) ?_ (fun m' hm => h2 m' (List.mem_cons_of_mem _ hm))
    rcases h1 with h1 | h1
    · rcases List.mem_cons.1 h1 with rfl | h1
      · right; simp [applyW, setRepParent, upd]
      · exact .inl h1
    · right
      cases w with
      | rep p' m' =>
        by_cases hp : p = p'
        · subst hp
          have := h2 m' (by simp)
          simp [applyW, setRepParent, upd, this]
        · simp [applyW, setRepParent, upd, hp, h1]
      | _ => simpa [applyW, setPeriodParent, setASetParent, setSubParent] using h1

theorem sub_parent (p m : Addr) (h1 : W.sub p m ∈ ws ∨ (h.sub p).parent = some m)
    (h2 : ∀ m', W.sub p m' ∈ ws → m' = m) : ((applyAll h ws).sub p).parent = some m := by
  induction ws generalizing h with
  | nil => simpa [applyAll] using h1
  | cons w ws ih =>
    refine ih (applyW h w) ?_ (fun m' hm => h2 m' (List.mem_cons_of_mem _ hm))
    rcases h1 with h1 | h1
    · rcases List.mem_cons.1 h1 with rfl | h1
      · right; simp [applyW, setSubParent, upd]
      · exact .inl h1
    · right
      cases w with
      | sub p' m' =>
        by_cases hp : p = p'
        · subst hp
          have := h2 m' (by simp)
          simp [applyW, setSubParent, upd, this]
        · simp [applyW, setSubParent, upd, hp, h1]
      | _ => simpa [applyW, setPeriodParent, setASetParent, setRepParent] using h1

/-- The child address written by a link write. -/
def W.child : W → Addr
  | .period p _ => p | .aset a _ => a | .rep r _ => r | .sub s _ => s

/-- Objects at addresses that no write touches are unchanged. -/
theorem untouched (x : Addr) (hx : ∀ w ∈ ws, w.child ≠ x) :
    (applyAll h ws).mpd x = h.mpd x ∧ (applyAll h ws).period x = h.period x ∧
    (applyAll h ws).aset x = h.aset x ∧ (applyAll h ws).rep x = h.rep x ∧
    (applyAll h ws).sub x = h.sub x := by
  induction ws generalizing h with
  | nil => exact ⟨rfl, rfl, rfl, rfl, rfl⟩
  | cons w ws ih =>
    have h1 := ih (applyW h w) (fun w' hw => hx w' (List.mem_cons_of_mem _ hw))
    have h2 := hx w (by simp)
    have h3 : (applyW h w).mpd x = h.mpd x ∧ (applyW h w).period x = h.period x ∧
        (applyW h w).aset x = h.aset x ∧ (applyW h w).rep x = h.rep x ∧
        (applyW h w).sub x = h.sub x := by
      cases w <;> simp only [W.child] at h2 <;>
        simp [applyW, setPeriodParent, setASetParent, setRepParent, setSubParent, upd, Ne.symm h2]
    obtain ⟨a1, a2, a3, a4, a5⟩ := h1
    obtain ⟨b1, b2, b3, b4, b5⟩ := h3
    exact ⟨a1.trans b1, a2.trans b2, a3.trans b3, a4.trans b4, a5.trans b5⟩

end

/-! ### C13 -/

/-- Adaptation set `a` is listed by a period of MPD `m`; and so on. -/
def HasASet (h : Heap) (m a : Addr) : Prop := ∃ p ∈ (h.mpd m).periods, a ∈ (h.period p).asets
def HasRep (h : Heap) (m r : Addr) : Prop := ∃ a, HasASet h m a ∧ r ∈ (h.aset a).reps

theorem mem_repW (h : Heap) (r : Addr) (w : W) : w ∈ repW h r ↔ ∃ s ∈ (h.rep r).subs, w = .sub s r := by
  simp [repW, eq_comm]
theorem mem_asetW (h : Heap) (a : Addr) (w : W) : w ∈ asetW h a ↔
    ∃ r ∈ (h.aset a).reps, w = .rep r a ∨ ∃ s ∈ (h.rep r).subs, w = .sub s r := by
  simp [asetW, mem_repW]
theorem mem_periodW (h : Heap) (p : Addr) (w : W) : w ∈ periodW h p ↔
    ∃ a ∈ (h.period p).asets, w = .aset a p ∨
      ∃ r ∈ (h.aset a).reps, w = .rep r a ∨ ∃ s ∈ (h.rep r).subs, w = .sub s r := by
  simp [periodW, mem_asetW]
theorem mem_mpdW (h : Heap) (m : Addr) (w : W) : w ∈ mpdW h m ↔
    ∃ p ∈ (h.mpd m).periods, w = .period p m ∨ ∃ a ∈ (h.period p).asets, w = .aset a p ∨
      ∃ r ∈ (h.aset a).reps, w = .rep r a ∨ ∃ s ∈ (h.rep r).subs, w = .sub s r := by
  simp [mpdW, mem_periodW]

theorem wperiod_mem (h : Heap) (m p m' : Addr) :
    W.period p m' ∈ mpdW h m ↔ m' = m ∧ p ∈ (h.mpd m).periods := by
  rw [mem_mpdW]
  constructor
  · rintro ⟨q, h1, e | ⟨b, h2, e | ⟨r', h3, e | ⟨s', h4, e⟩⟩⟩⟩ <;> cases e
    exact ⟨rfl, h1⟩
  · rintro ⟨rfl, h1⟩; exact ⟨p, h1, .inl rfl⟩

theorem waset_mem (h : Heap) (m a p : Addr) :
    W.aset a p ∈ mpdW h m ↔ p ∈ (h.mpd m).periods ∧ a ∈ (h.period p).asets := by
  rw [mem_mpdW]
  constructor
  · rintro ⟨q, h1, e | ⟨b, h2, e | ⟨r', h3, e | ⟨s', h4, e⟩⟩⟩⟩ <;> cases e
    exact ⟨h1, h2⟩
  · rintro ⟨h1, h2⟩; exact ⟨p, h1, .inr ⟨a, h2, .inl rfl⟩⟩

theorem wrep_mem (h : Heap) (m r a : Addr) :
    W.rep r a ∈ mpdW h m ↔ HasASet h m a ∧ r ∈ (h.aset a).reps := by
  rw [mem_mpdW]
  constructor
  · rintro ⟨q, h1, e | ⟨b, h2, e | ⟨r', h3, e | ⟨s', h4, e⟩⟩⟩⟩ <;> cases e
    exact ⟨⟨q, h1, h2⟩, h3⟩
  · rintro ⟨⟨q, h1, h2⟩, h3⟩; exact ⟨q, h1, .inr ⟨a, h2, .inr ⟨r, h3, .inl rfl⟩⟩⟩

theorem wsub_mem (h : Heap) (m s r : Addr) :
    W.sub s r ∈ mpdW h m ↔ HasRep h m r ∧ s ∈ (h.rep r).subs := by
  rw [mem_mpdW]
  constructor
  · rintro ⟨q, h1, e | ⟨b, h2, e | ⟨r', h3, e | ⟨s', h4, e⟩⟩⟩⟩ <;> cases e
    exact ⟨⟨b, ⟨q, h1, h2⟩, h3⟩, h4⟩
  · rintro ⟨⟨b, ⟨q, h1, h2⟩, h3⟩, h4⟩; exact ⟨q, h1, .inr ⟨b, h2, .inr ⟨r, h3, .inr ⟨s, h4, rfl⟩⟩⟩⟩

/-- C13 (SetParents): every object listed below the MPD gets as parent the object that lists it, as soon
as only one object below the MPD lists it; nothing but parent links changes. -/
theorem C13_setParents (h : Heap) (m : Addr) :
    Same h (mpdSetParents h m) ∧
    (∀ p ∈ (h.mpd m).periods, ((mpdSetParents h m).period p).parent = some m) ∧
    (∀ p ∈ (h.mpd m).periods, ∀ a ∈ (h.period p).asets,
      (∀ p' ∈ (h.mpd m).periods, a ∈ (h.period p').asets → p' = p) →
      ((mpdSetParents h m).aset a).parent = some p) ∧
    (∀ a, HasASet h m a → ∀ r ∈ (h.aset a).reps,
      (∀ a', HasASet h m a' → r ∈ (h.aset a').reps → a' = a) →
      ((mpdSetParents h m).rep r).parent = some a) ∧
    (∀ r, HasRep h m r → ∀ s ∈ (h.rep r).subs,
      (∀ r', HasRep h m r' → s ∈ (h.rep r').subs → r' = r) →
      ((mpdSetParents h m).sub s).parent = some r) := by
  rw [mpdSetParents_eq]
  refine ⟨same_applyAll _ _, ?_, ?_, ?_, ?_⟩
  · intro p hp
    exact period_parent _ _ _ _ (.inl ((wperiod_mem _ _ _ _).2 ⟨rfl, hp⟩))
      (fun m' hm => ((wperiod_mem _ _ _ _).1 hm).1)
  · intro p hp a ha hu
    exact aset_parent _ _ _ _ (.inl ((waset_mem _ _ _ _).2 ⟨hp, ha⟩))
      (fun m' hm => let hh := (waset_mem _ _ _ _).1 hm; hu _ hh.1 hh.2)
  · intro a ha r hr hu
    exact rep_parent _ _ _ _ (.inl ((wrep_mem _ _ _ _).2 ⟨ha, hr⟩))
      (fun m' hm => let hh := (wrep_mem _ _ _ _).1 hm; hu _ hh.1 hh.2)
  · intro r hr s hs hu
    exact sub_parent _ _ _ _ (.inl ((wsub_mem _ _ _ _).2 ⟨hr, hs⟩))
      (fun m' hm => let hh := (wsub_mem _ _ _ _).1 hm; hu _ hh.1 hh.2)

/-- Every listed object in the heap has the object that lists it as parent. -/
structure LinkedAll (h : Heap) : Prop where
  period : ∀ m, ∀ p ∈ (h.mpd m).periods, (h.period p).parent = some m
  aset : ∀ p, ∀ a ∈ (h.period p).asets, (h.aset a).parent = some p
  rep : ∀ a, ∀ r ∈ (h.aset a).reps, (h.rep r).parent = some a
  sub : ∀ r, ∀ s ∈ (h.rep r).subs, (h.sub s).parent = some r

/-- The four append methods as operations. -/
inductive Op
  | period (m p : Addr) | aset (p a : Addr) | rep (a r : Addr) | sub (r s : Addr)

def Op.run (h : Heap) : Op → Heap
  | .period m p => appendPeriod h m p
  | .aset p a => appendASet h p a
  | .rep a r => appendRep h a r
  | .sub r s => appendSub h r s

/-- The appended object is not listed anywhere yet. -/
def Op.New (h : Heap) : Op → Prop
  | .period _ p => ∀ m, p ∉ (h.mpd m).periods
  | .aset _ a => ∀ p, a ∉ (h.period p).asets
  | .rep _ r => ∀ a, r ∉ (h.aset a).reps
  | .sub _ s => ∀ r, s ∉ (h.rep r).subs

/-- `Run h ops h'`: the operations lead from `h` to `h'`, each one appending a new object. -/
inductive Run : Heap → List Op → Heap → Prop
  | nil (h) : Run h [] h
  | cons {h op ops h'} : op.New h → Run (op.run h) ops h' → Run h (op :: ops) h'

theorem linked_step (h : Heap) (op : Op) (hl : LinkedAll h) (hn : op.New h) : LinkedAll (op.run h) := by
  cases op with
  | period m p =>
    refine ⟨?_, ?_, hl.rep, hl.sub⟩
    · intro m' p' hp'
      simp only [Op.run, appendPeriod, setPeriodParent, upd] at hp' ⊢
      by_cases h1 : m' = m
      · subst h1
        simp at hp'
        rcases hp' with h2 | rfl
        · have : p' ≠ p := fun h3 => hn m' (h3 ▸ h2)
          simp [this, hl.period m' p' h2]
        · simp
      · simp [h1] at hp'
        have : p' ≠ p := fun h3 => hn m' (h3 ▸ hp')
        simp [this, hl.period m' p' hp']
    · intro p' a ha
      simp only [Op.run, appendPeriod, setPeriodParent, upd] at ha ⊢
      by_cases h1 : p' = p
      · subst h1; simp at ha; exact hl.aset p' a ha
      · simp [h1] at ha; exact hl.aset p' a ha
  | aset m p =>
    refine ⟨?_, ?_, ?_, hl.sub⟩
    · intro m' p' hp'
      simp only [Op.run, appendASet, setASetParent, upd] at hp' ⊢
      by_cases h1 : p' = m
      · subst h1; simp; exact hl.period m' p' hp'
      · simp [h1]; exact hl.period m' p' hp'
    · intro m' p' hp'
      simp only [Op.run, appendASet, setASetParent, upd] at hp' ⊢
      by_cases h1 : m' = m
      · subst h1
        simp at hp'
        rcases hp' with h2 | rfl
        · have : p' ≠ p := fun h3 => hn m' (h3 ▸ h2)
          simp [this, hl.aset m' p' h2]
        · simp
      · simp [h1] at hp'
        have : p' ≠ p := fun h3 => hn m' (h3 ▸ hp')
        simp [this, hl.aset m' p' hp']
    · intro p' a ha
      simp only [Op.run, appendASet, setASetParent, upd] at ha ⊢
      by_cases h1 : p' = p
      · subst h1; simp at ha; exact hl.rep p' a ha
      · simp [h1] at ha; exact hl.rep p' a ha
  | rep m p =>
    refine ⟨hl.period, ?_, ?_, ?_⟩
    · intro m' p' hp'
      simp only [Op.run, appendRep, setRepParent, upd] at hp' ⊢
      by_cases h1 : p' = m
      · subst h1; simp; exact hl.aset m' p' hp'
      · simp [h1]; exact hl.aset m' p' hp'
    · intro m' p' hp'
      simp only [Op.run, appendRep, setRepParent, upd] at hp' ⊢
      by_cases h1 : m' = m
      · subst h1
        simp at hp'
        rcases hp' with h2 | rfl
        · have : p' ≠ p := fun h3 => hn m' (h3 ▸ h2)
          simp [this, hl.rep m' p' h2]
        · simp
      · simp [h1] at hp'
        have : p' ≠ p := fun h3 => hn m' (h3 ▸ hp')
        simp [this, hl.rep m' p' hp']
    · intro p' a ha
      simp only [Op.run, appendRep, setRepParent, upd] at ha ⊢
      by_cases h1 : p' = p
      · subst h1; simp at ha; exact hl.sub p' a ha
      · simp [h1] at ha; exact hl.sub p' a ha
  | sub m p =>
    refine ⟨hl.period, hl.aset, ?_, ?_⟩
    · intro m' p' hp'
      simp only [Op.run, appendSub, setSubParent, upd] at hp' ⊢
      by_cases h1 : p' = m
      · subst h1; simp; exact hl.rep m' p' hp'
      · simp [h1]; exact hl.rep m' p' hp'
    · intro m' p' hp'
      simp only [Op.run, appendSub, setSubParent, upd] at hp' ⊢
      by_cases h1 : m' = m
      · subst h1
        simp at hp'
        rcases hp' with h2 | rfl
        · have : p' ≠ p := fun h3 => hn m' (h3 ▸ h2)
          simp [this, hl.sub m' p' h2]
        · simp
      · simp [h1] at hp'
        have : p' ≠ p := fun h3 => hn m' (h3 ▸ hp')
        simp [this, hl.sub m' p' hp']

/-- C13 (appends): any sequence of appends of new objects keeps every parent link correct. -/
theorem C13_appends (h h' : Heap) (ops : List Op) (hl : LinkedAll h) (hr : Run h ops h') : LinkedAll h' := by
  induction hr with
  | nil => exact hl
  | cons hn _ ih => exact ih (linked_step _ _ hl hn)

def emptyHeap : Heap :=
  { mpd := fun _ => {}, period := fun _ => {}, aset := fun _ => {}, rep := fun _ => {}, sub := fun _ => {} }

/-- Building a tree of one of each from nothing. -/
example : ∃ h', Run emptyHeap [.period 0 1, .aset 1 2, .rep 2 3, .sub 3 4, .period 0 5] h' ∧
    LinkedAll h' ∧ (h'.mpd 0).periods = [1, 5] ∧ (h'.sub 4).parent = some 3 := by
  refine ⟨_, .cons ?_ (.cons ?_ (.cons ?_ (.cons ?_ (.cons ?_ (.nil _))))), ?_, ?_, ?_⟩
  · intro m; simp [emptyHeap]
  · intro m; simp [emptyHeap, Op.run, appendPeriod, setPeriodParent, upd]; split <;> simp
  · intro m; simp [emptyHeap, Op.run, appendPeriod, setPeriodParent, upd, appendASet, setASetParent]; split <;> simp
  · intro m; simp [emptyHeap, Op.run, appendPeriod, setPeriodParent, upd, appendASet, setASetParent, appendRep, setRepParent]; split <;> simp
  · intro m; simp [emptyHeap, Op.run, appendPeriod, setPeriodParent, upd, appendASet, setASetParent, appendRep, setRepParent, appendSub, setSubParent]; split <;> simp
  · refine C13_appends emptyHeap _ [.period 0 1, .aset 1 2, .rep 2 3, .sub 3 4, .period 0 5] ?_ (.cons ?_ (.cons ?_ (.cons ?_ (.cons ?_ (.cons ?_ (.nil _)))))) 
    · constructor <;> simp [emptyHeap]
    · intro m; simp [emptyHeap]
    · intro m; simp [emptyHeap, Op.run, appendPeriod, setPeriodParent, upd]; split <;> simp
    · intro m; simp [emptyHeap, Op.run, appendPeriod, setPeriodParent, upd, appendASet, setASetParent]; split <;> simp
    · intro m; simp [emptyHeap, Op.run, appendPeriod, setPeriodParent, upd, appendASet, setASetParent, appendRep, setRepParent]; split <;> simp
    · intro m; simp [emptyHeap, Op.run, appendPeriod, setPeriodParent, upd, appendASet, setASetParent, appendRep, setRepParent, appendSub, setSubParent]; split <;> simp
  · rfl
  · rfl

/-! ### C14 -/

/-- The content seen by following the lists: a value tree without addresses. -/
structure RepV where
  rest : Nat
  subs : List Nat
structure ASetV where
  rest : Nat
  reps : List RepV
structure PeriodV where
  start : Option Int
  dur : Option Int
  rest : Nat
  asets : List ASetV
structure MpdV where
  typ : Option Bytes
  mpDur : Option Int
  minUpd : Option Int
  ast : Bytes
  rest : Nat
  periods : List PeriodV

def repView (h : Heap) (r : Addr) : RepV := ⟨(h.rep r).rest, (h.rep r).subs.map fun s => (h.sub s).rest⟩
def asetView (h : Heap) (a : Addr) : ASetV := ⟨(h.aset a).rest, (h.aset a).reps.map (repView h)⟩
def periodView (h : Heap) (p : Addr) : PeriodV :=
  ⟨(h.period p).start, (h.period p).dur, (h.period p).rest, (h.period p).asets.map (asetView h)⟩
def mpdView (h : Heap) (m : Addr) : MpdV :=
  ⟨(h.mpd m).typ, (h.mpd m).mpDur, (h.mpd m).minUpd, (h.mpd m).ast, (h.mpd m).rest,
    (h.mpd m).periods.map (periodView h)⟩

/-- A set of addresses closed under the listed pointers. -/
structure Closed (h : Heap) (R : Addr → Prop) : Prop where
  mpd : ∀ x, R x → ∀ y ∈ (h.mpd x).periods, R y
  period : ∀ x, R x → ∀ y ∈ (h.period x).asets, R y
  aset : ∀ x, R x → ∀ y ∈ (h.aset x).reps, R y
  rep : ∀ x, R x → ∀ y ∈ (h.rep x).subs, R y

/-- The two heaps have the same content (all fields except parents) at the addresses in `R`. -/
structure AgreeOn (R : Addr → Prop) (h h' : Heap) : Prop where
  mpd : ∀ x, R x → h'.mpd x = h.mpd x
  period : ∀ x, R x → { h'.period x with parent := none } = { h.period x with parent := none }
  aset : ∀ x, R x → { h'.aset x with parent := none } = { h.aset x with parent := none }
  rep : ∀ x, R x → { h'.rep x with parent := none } = { h.rep x with parent := none }
  sub : ∀ x, R x → { h'.sub x with parent := none } = { h.sub x with parent := none }

section
variable {R : Addr → Prop} {h h' : Heap} (hc : Closed h R) (ha : AgreeOn R h h')
include hc ha

theorem repView_agree (x) (hx : R x) : repView h' x = repView h x := by
  have e1 : (h'.rep x).rest = (h.rep x).rest := by
    have := congrArg RepObj.rest (ha.rep x hx); exact this
  have e2 : (h'.rep x).subs = (h.rep x).subs := by
    have := congrArg RepObj.subs (ha.rep x hx); exact this
  unfold repView
  rw [e1, e2]
  congr 1
  refine List.map_congr_left fun s hs => ?_
  have := congrArg SubObj.rest (ha.sub s (hc.rep x hx s hs)); exact this

theorem asetView_agree (x) (hx : R x) : asetView h' x = asetView h x := by
  have e1 : (h'.aset x).rest = (h.aset x).rest := by
    have := congrArg ASetObj.rest (ha.aset x hx); exact this
  have e2 : (h'.aset x).reps = (h.aset x).reps := by
    have := congrArg ASetObj.reps (ha.aset x hx); exact this
  unfold asetView
  rw [e1, e2]
  congr 1
  exact List.map_congr_left fun s hs => repView_agree hc ha s (hc.aset x hx s hs)

theorem periodView_agree (x) (hx : R x) : periodView h' x = periodView h x := by
  have e1 : (h'.period x).rest = (h.period x).rest := by
    have := congrArg PeriodObj.rest (ha.period x hx); exact this
  have e2 : (h'.period x).asets = (h.period x).asets := by
    have := congrArg PeriodObj.asets (ha.period x hx); exact this
  have e3 : (h'.period x).start = (h.period x).start := by
    have := congrArg PeriodObj.start (ha.period x hx); exact this
  have e4 : (h'.period x).dur = (h.period x).dur := by
    have := congrArg PeriodObj.dur (ha.period x hx); exact this
  unfold periodView
  rw [e1, e2, e3, e4]
  congr 1
  exact List.map_congr_left fun s hs => asetView_agree hc ha s (hc.period x hx s hs)

theorem mpdView_agree (x) (hx : R x) : mpdView h' x = mpdView h x := by
  unfold mpdView
  rw [ha.mpd x hx]
  congr 1
  exact List.map_congr_left fun s hs => periodView_agree hc ha s (hc.mpd x hx s hs)
end

theorem Same.agree {h h' : Heap} (s : Same h h') (R) : AgreeOn R h h' :=
  ⟨fun x _ => congrFun s.mpd x, fun x _ => s.period x, fun x _ => s.aset x, fun x _ => s.rep x, fun x _ => s.sub x⟩

section
variable {h h' : Heap} {φ : Addr → Addr} {R old : Addr → Prop}
  (dc : DeepCopy h h' φ R old) (hc : Closed h R)
include dc hc

theorem repView_copy (x) (hx : R x) : repView h' (φ x) = repView h x := by
  unfold repView
  rw [dc.rep_new x hx]
  simp only [List.map_map]
  congr 1
  refine List.map_congr_left fun s hs => ?_
  simp [dc.sub_new s (hc.rep x hx s hs)]

theorem asetView_copy (x) (hx : R x) : asetView h' (φ x) = asetView h x := by
  unfold asetView
  rw [dc.aset_new x hx]
  simp only [List.map_map]
  congr 1
  exact List.map_congr_left fun s hs => repView_copy dc hc s (hc.aset x hx s hs)

theorem periodView_copy (x) (hx : R x) : periodView h' (φ x) = periodView h x := by
  unfold periodView
  rw [dc.period_new x hx]
  simp only [List.map_map]
  congr 1
  exact List.map_congr_left fun s hs => asetView_copy dc hc s (hc.period x hx s hs)

theorem mpdView_copy (x) (hx : R x) : mpdView h' (φ x) = mpdView h x := by
  unfold mpdView
  rw [dc.mpd_new x hx]
  simp only [List.map_map]
  congr 1
  exact List.map_congr_left fun s hs => periodView_copy dc hc s (hc.mpd x hx s hs)

/-- The addresses of the clone. -/
def Img (φ : Addr → Addr) (R : Addr → Prop) (y : Addr) : Prop := ∃ x, R x ∧ y = φ x

theorem img_closed : Closed h' (Img φ R) := by
  constructor
  · rintro _ ⟨x, hx, rfl⟩ y hy
    rw [dc.mpd_new x hx] at hy; simp at hy
    obtain ⟨z, hz, rfl⟩ := hy; exact ⟨z, hc.mpd x hx z hz, rfl⟩
  · rintro _ ⟨x, hx, rfl⟩ y hy
    rw [dc.period_new x hx] at hy; simp at hy
    obtain ⟨z, hz, rfl⟩ := hy; exact ⟨z, hc.period x hx z hz, rfl⟩
  · rintro _ ⟨x, hx, rfl⟩ y hy
    rw [dc.aset_new x hx] at hy; simp at hy
    obtain ⟨z, hz, rfl⟩ := hy; exact ⟨z, hc.aset x hx z hz, rfl⟩
  · rintro _ ⟨x, hx, rfl⟩ y hy
    rw [dc.rep_new x hx] at hy; simp at hy
    obtain ⟨z, hz, rfl⟩ := hy; exact ⟨z, hc.rep x hx z hz, rfl⟩

theorem old_closed_agree : AgreeOn R h h' :=
  ⟨fun x hx => dc.mpd_old x (dc.sub_old x hx), fun x hx => by rw [dc.period_old x (dc.sub_old x hx)],
   fun x hx => by rw [dc.aset_old x (dc.sub_old x hx)], fun x hx => by rw [dc.rep_old x (dc.sub_old x hx)],
   fun x hx => by rw [dc.subr_old x (dc.sub_old x hx)]⟩
end

theorem Same.closed {h h' : Heap} {R} (s : Same h h') (hc : Closed h R) : Closed h' R :=
  ⟨fun x hx y hy => hc.mpd x hx y (by rwa [s.mpd] at hy), fun x hx y hy => hc.period x hx y (by rwa [s.asets] at hy),
   fun x hx y hy => hc.aset x hx y (by rwa [s.reps] at hy), fun x hx y hy => hc.rep x hx y (by rwa [s.subs] at hy)⟩

theorem Closed.mono_agree {h h' : Heap} {R} (a : AgreeOn R h h') (hc : Closed h R) : Closed h' R :=
  ⟨fun x hx y hy => hc.mpd x hx y (by rwa [a.mpd x hx] at hy),
   fun x hx y hy => hc.period x hx y (by
     have := congrArg PeriodObj.asets (a.period x hx); simp at this; rwa [this] at hy),
   fun x hx y hy => hc.aset x hx y (by
     have := congrArg ASetObj.reps (a.aset x hx); simp at this; rwa [this] at hy),
   fun x hx y hy => hc.rep x hx y (by
     have := congrArg RepObj.subs (a.rep x hx); simp at this; rwa [this] at hy)⟩

/-- All writes of a `SetParents` rooted in a closed set stay inside it. -/
theorem child_mpdW {h : Heap} {R} (hc : Closed h R) {m} (hm : R m) : ∀ w ∈ mpdW h m, R w.child := by
  intro w hw
  obtain ⟨p, hp, rfl | ⟨a, ha, rfl | ⟨r, hr, rfl | ⟨s, hs, rfl⟩⟩⟩⟩ := (mem_mpdW _ _ _).1 hw
  · exact hc.mpd m hm p hp
  · exact hc.period p (hc.mpd m hm p hp) a ha
  · exact hc.aset a (hc.period p (hc.mpd m hm p hp) a ha) r hr
  · exact hc.rep r (hc.aset a (hc.period p (hc.mpd m hm p hp) a ha) r hr) s hs
theorem child_periodW {h : Heap} {R} (hc : Closed h R) {m} (hm : R m) : ∀ w ∈ periodW h m, R w.child := by
  intro w hw
  obtain ⟨a, ha, rfl | ⟨r, hr, rfl | ⟨s, hs, rfl⟩⟩⟩ := (mem_periodW _ _ _).1 hw
  · exact hc.period m hm a ha
  · exact hc.aset a (hc.period m hm a ha) r hr
  · exact hc.rep r (hc.aset a (hc.period m hm a ha) r hr) s hs
theorem child_asetW {h : Heap} {R} (hc : Closed h R) {m} (hm : R m) : ∀ w ∈ asetW h m, R w.child := by
  intro w hw
  obtain ⟨r, hr, rfl | ⟨s, hs, rfl⟩⟩ := (mem_asetW _ _ _).1 hw
  · exact hc.aset m hm r hr
  · exact hc.rep r (hc.aset m hm r hr) s hs

/-- What isolation means: after cloning (heap `h2`, clone addresses `Img φ R`, original addresses `R`),
(1) no object that existed before has changed in any way; (2) no address of the clone is one of the
addresses that existed before, and pointers of the clone stay inside the clone; (3) whatever later changes
are made to objects outside the clone, the content of the clone stays the same, and whatever changes are
made to objects outside the original, the content of the original stays the same. -/
structure Isolated (h h2 : Heap) (φ : Addr → Addr) (R old : Addr → Prop) {V : Type}
    (view : Heap → Addr → V) (root : Addr) : Prop where
  same_content : view h2 (φ root) = view h root
  original_mpd : ∀ x, old x → h2.mpd x = h.mpd x
  original_period : ∀ x, old x → h2.period x = h.period x
  original_aset : ∀ x, old x → h2.aset x = h.aset x
  original_rep : ∀ x, old x → h2.rep x = h.rep x
  original_sub : ∀ x, old x → h2.sub x = h.sub x
  disjoint : ∀ y, Img φ R y → ¬ old y
  inside : Closed h2 (Img φ R)
  clone_stable : ∀ h3, AgreeOn (Img φ R) h2 h3 → view h3 (φ root) = view h root
  original_stable : ∀ h3, AgreeOn R h2 h3 → view h3 root = view h root

theorem isolated_of {h h' : Heap} {φ : Addr → Addr} {R old : Addr → Prop}
    (dc : DeepCopy h h' φ R old) (hc : Closed h R) {V : Type} (view : Heap → Addr → V) (root : Addr)
    (hcopy : view h' (φ root) = view h root)
    (hagree : ∀ (S : Addr → Prop) (a b : Heap) (x), Closed a S → AgreeOn S a b → S x → view b x = view a x)
    (hroot : R root) (ws : List W) (hws : ∀ w ∈ ws, Img φ R w.child) :
    Isolated h (applyAll h' ws) φ R old view root := by
  have hsame := same_applyAll h' ws
  have hic : Closed h' (Img φ R) := img_closed dc hc
  have hdis : ∀ y, Img φ R y → ¬ old y := by rintro _ ⟨x, hx, rfl⟩; exact dc.fresh x hx
  have hun : ∀ x, old x → _ := fun x hx => untouched h' ws x
    (fun w hw he => hdis _ (hws w hw) (he ▸ hx))
  have hcl : view (applyAll h' ws) (φ root) = view h root := by
    rw [← hcopy]; exact hagree _ _ _ _ hic (hsame.agree _) ⟨root, hroot, rfl⟩
  have hRc : Closed h' R := Closed.mono_agree (old_closed_agree dc hc) hc
  constructor
  · exact hcl
  · intro x hx; rw [(hun x hx).1, dc.mpd_old x hx]
  · intro x hx; rw [(hun x hx).2.1, dc.period_old x hx]
  · intro x hx; rw [(hun x hx).2.2.1, dc.aset_old x hx]
  · intro x hx; rw [(hun x hx).2.2.2.1, dc.rep_old x hx]
  · intro x hx; rw [(hun x hx).2.2.2.2, dc.subr_old x hx]
  · exact hdis
  · exact hsame.closed hic
  · intro h3 h3a
    rw [← hcl]; exact hagree _ _ _ _ (hsame.closed hic) h3a ⟨root, hroot, rfl⟩
  · intro h3 h3a
    rw [hagree _ _ _ _ (hsame.closed hRc) h3a hroot, hagree _ _ _ _ hRc (hsame.agree _) hroot,
      hagree _ _ _ _ hc (old_closed_agree dc hc) hroot]

/-- C14 for `Clone(mpd)`: isolation, and every period of the clone has the clone as parent (adaptation
sets, representations and sub-representations by C13_setParents, of which this is an instance). -/
theorem C14_clone_mpd (h h' : Heap) (φ : Addr → Addr) (R old : Addr → Prop) (m : Addr)
    (dc : DeepCopy h h' φ R old) (hc : Closed h R) (hm : R m) :
    Isolated h (cloneMpd h' (φ m)) φ R old mpdView m ∧
    (∀ p ∈ (h.mpd m).periods, ((cloneMpd h' (φ m)).period (φ p)).parent = some (φ m)) ∧
    (∀ p ∈ (h.mpd m).periods, ∀ a ∈ (h.period p).asets,
      (∀ p' ∈ (h.mpd m).periods, a ∈ (h.period p').asets → p' = p) →
      ((cloneMpd h' (φ m)).aset (φ a)).parent = some (φ p)) ∧
    (∀ a, HasASet h m a → ∀ r ∈ (h.aset a).reps,
      (∀ a', HasASet h m a' → r ∈ (h.aset a').reps → a' = a) →
      ((cloneMpd h' (φ m)).rep (φ r)).parent = some (φ a)) ∧
    (∀ r, HasRep h m r → ∀ s ∈ (h.rep r).subs,
      (∀ r', HasRep h m r' → s ∈ (h.rep r').subs → r' = r) →
      ((cloneMpd h' (φ m)).sub (φ s)).parent = some (φ r)) := by
  have hic : Closed h' (Img φ R) := img_closed dc hc
  have hperiods : (h'.mpd (φ m)).periods = (h.mpd m).periods.map φ := by rw [dc.mpd_new m hm]
  have hasets : ∀ p, R p → (h'.period (φ p)).asets = (h.period p).asets.map φ := by
    intro p hp; rw [dc.period_new p hp]
  have hreps : ∀ p, R p → (h'.aset (φ p)).reps = (h.aset p).reps.map φ := by
    intro p hp; rw [dc.aset_new p hp]
  have hsubs : ∀ p, R p → (h'.rep (φ p)).subs = (h.rep p).subs.map φ := by
    intro p hp; rw [dc.rep_new p hp]
  have Rp : ∀ p ∈ (h.mpd m).periods, R p := hc.mpd m hm
  have Ra : ∀ a, HasASet h m a → R a := by
    rintro a ⟨p, hp, ha⟩; exact hc.period p (Rp p hp) a ha
  have Rr : ∀ r, HasRep h m r → R r := by
    rintro r ⟨a, ha, hr⟩; exact hc.aset a (Ra a ha) r hr
  have hA : ∀ y, HasASet h' (φ m) y ↔ ∃ a, HasASet h m a ∧ y = φ a := by
    intro y
    constructor
    · rintro ⟨p, hp, hy⟩
      rw [hperiods] at hp
      obtain ⟨p0, hp0, rfl⟩ := List.mem_map.1 hp
      rw [hasets p0 (Rp p0 hp0)] at hy
      obtain ⟨a, ha, rfl⟩ := List.mem_map.1 hy
      exact ⟨a, ⟨p0, hp0, ha⟩, rfl⟩
    · rintro ⟨a, ⟨p, hp, ha⟩, rfl⟩
      exact ⟨φ p, by rw [hperiods]; exact List.mem_map_of_mem hp,
        by rw [hasets p (Rp p hp)]; exact List.mem_map_of_mem ha⟩
  have hRp : ∀ y, HasRep h' (φ m) y ↔ ∃ r, HasRep h m r ∧ y = φ r := by
    intro y
    constructor
    · rintro ⟨a, ha, hy⟩
      obtain ⟨a0, ha0, rfl⟩ := (hA a).1 ha
      rw [hreps a0 (Ra a0 ha0)] at hy
      obtain ⟨r, hr, rfl⟩ := List.mem_map.1 hy
      exact ⟨r, ⟨a0, ha0, hr⟩, rfl⟩
    · rintro ⟨r, ⟨a, ha, hr⟩, rfl⟩
      exact ⟨φ a, (hA _).2 ⟨a, ha, rfl⟩, by rw [hreps a (Ra a ha)]; exact List.mem_map_of_mem hr⟩
  have mem_map_inj : ∀ (l : List Addr) x, φ x ∈ l.map φ → x ∈ l := by
    intro l x hx
    obtain ⟨y, hy, hxy⟩ := List.mem_map.1 hx
    rwa [← dc.inj _ _ hxy]
  obtain ⟨-, k1, k2, k3, k4⟩ := C13_setParents h' (φ m)
  refine ⟨?_, ?_, ?_, ?_, ?_⟩
  · unfold cloneMpd
    rw [mpdSetParents_eq]
    exact isolated_of dc hc mpdView m (mpdView_copy dc hc m hm)
      (fun S a b x h1 h2 h3 => mpdView_agree h1 h2 x h3) hm _ (child_mpdW hic ⟨m, hm, rfl⟩)
  · intro p hp
    exact k1 (φ p) (by rw [hperiods]; exact List.mem_map_of_mem hp)
  · intro p hp a ha hu
    refine k2 (φ p) (by rw [hperiods]; exact List.mem_map_of_mem hp) (φ a)
      (by rw [hasets p (Rp p hp)]; exact List.mem_map_of_mem ha) ?_
    intro p' hp' ha'
    rw [hperiods] at hp'
    obtain ⟨q, hq, rfl⟩ := List.mem_map.1 hp'
    rw [hasets q (Rp q hq)] at ha'
    rw [hu q hq (mem_map_inj _ _ ha')]
  · intro a ha r hr hu
    refine k3 (φ a) ((hA _).2 ⟨a, ha, rfl⟩) (φ r)
      (by rw [hreps a (Ra a ha)]; exact List.mem_map_of_mem hr) ?_
    intro a' ha' hr'
    obtain ⟨q, hq, rfl⟩ := (hA _).1 ha'
    rw [hreps q (Ra q hq)] at hr'
    rw [hu q hq (mem_map_inj _ _ hr')]
  · intro r hr s hs hu
    refine k4 (φ r) ((hRp _).2 ⟨r, hr, rfl⟩) (φ s)
      (by rw [hsubs r (Rr r hr)]; exact List.mem_map_of_mem hs) ?_
    intro a' ha' hr'
    obtain ⟨q, hq, rfl⟩ := (hRp _).1 ha'
    rw [hsubs q (Rr q hq)] at hr'
    rw [hu q hq (mem_map_inj _ _ hr')]

/-- C14 for `Period.Clone`: isolation, unset parent of the clone itself, links below it. -/
theorem C14_clone_period (h h' : Heap) (φ : Addr → Addr) (R old : Addr → Prop) (p : Addr)
    (dc : DeepCopy h h' φ R old) (hc : Closed h R) (hp : R p) :
    Isolated h (clonePeriod h' (φ p)) φ R old periodView p ∧
    ((clonePeriod h' (φ p)).period (φ p)).parent = none ∧
    (∀ a ∈ (h.period p).asets, ((clonePeriod h' (φ p)).aset (φ a)).parent = some (φ p)) ∧
    (∀ a ∈ (h.period p).asets, ∀ r ∈ (h.aset a).reps,
      (∀ a' ∈ (h.period p).asets, r ∈ (h.aset a').reps → a' = a) →
      ((clonePeriod h' (φ p)).rep (φ r)).parent = some (φ a)) ∧
    (∀ a ∈ (h.period p).asets, ∀ r ∈ (h.aset a).reps, ∀ s ∈ (h.rep r).subs,
      (∀ a' ∈ (h.period p).asets, ∀ r' ∈ (h.aset a').reps, s ∈ (h.rep r').subs → r' = r) →
      ((clonePeriod h' (φ p)).sub (φ s)).parent = some (φ r)) := by
  have mem_map_inj : ∀ (l : List Addr) x, φ x ∈ l.map φ → x ∈ l := by
    intro l x hx
    obtain ⟨y, hy, hxy⟩ := List.mem_map.1 hx
    rwa [← dc.inj _ _ hxy]
  have hasets : (h'.period (φ p)).asets = (h.period p).asets.map φ := by rw [dc.period_new p hp]
  have hreps : ∀ p, R p → (h'.aset (φ p)).reps = (h.aset p).reps.map φ := by
    intro p hp; rw [dc.aset_new p hp]
  have hsubs : ∀ p, R p → (h'.rep (φ p)).subs = (h.rep p).subs.map φ := by
    intro p hp; rw [dc.rep_new p hp]
  have Ra := hc.period p hp
  have hic : Closed h' (Img φ R) := img_closed dc hc
  unfold clonePeriod
  rw [periodSetParents_eq]
  refine ⟨?_, ?_, ?_, ?_, ?_⟩
  · exact isolated_of dc hc periodView p (periodView_copy dc hc p hp)
      (fun S a b x h1 h2 h3 => periodView_agree h1 h2 x h3) hp _ (child_periodW hic ⟨p, hp, rfl⟩)
  · have : (applyAll h' (periodW h' (φ p))).period = h'.period := by
      have : ∀ ws : List W, (∀ w ∈ ws, ∀ x y, w ≠ .period x y) → ∀ h', (applyAll h' ws).period = h'.period := by
        intro ws
        induction ws with
        | nil => intros; rfl
        | cons w ws ih =>
          intro hw h'
          have e := ih (fun w' hw' => hw w' (List.mem_cons_of_mem _ hw')) (applyW h' w)
          have e2 : (applyW h' w).period = h'.period := by
            cases w with
            | period x y => exact absurd rfl (hw _ (by simp) x y)
            | _ => rfl
          exact e.trans e2
      apply this
      rintro w hw x y rfl
      rw [mem_periodW] at hw; simp at hw
    rw [this, dc.period_new p hp]
  · intro a ha
    refine aset_parent _ _ _ _ (.inl ?_) ?_
    · rw [mem_periodW]
      exact ⟨φ a, by rw [dc.period_new p hp]; exact List.mem_map_of_mem ha, .inl rfl⟩
    · intro m' hm'
      rw [mem_periodW] at hm'
      obtain ⟨b, hb, e | ⟨r', h3, e | ⟨s', h4, e⟩⟩⟩ := hm' <;> cases e
      rfl

  · intro a ha r hr hu
    refine rep_parent _ _ _ _ (.inl ?_) ?_
    · rw [mem_periodW]
      exact ⟨φ a, by rw [hasets]; exact List.mem_map_of_mem ha, .inr ⟨φ r, by
        rw [hreps a (Ra a ha)]; exact List.mem_map_of_mem hr, .inl rfl⟩⟩
    · intro m' hm'
      rw [mem_periodW] at hm'
      obtain ⟨b, hb, e | ⟨r', h3, e | ⟨s', h4, e⟩⟩⟩ := hm' <;> cases e
      rw [hasets] at hb
      obtain ⟨b, hb', rfl⟩ := List.mem_map.1 hb
      replace hb := hb'
      rw [hreps b (Ra b hb)] at h3
      rw [hu b hb (mem_map_inj _ _ h3)]
  · intro a ha r hr s hs hu
    have Rr := hc.aset a (Ra a ha) r hr
    refine sub_parent _ _ _ _ (.inl ?_) ?_
    · rw [mem_periodW]
      exact ⟨φ a, by rw [hasets]; exact List.mem_map_of_mem ha, .inr ⟨φ r, by
        rw [hreps a (Ra a ha)]; exact List.mem_map_of_mem hr, .inr ⟨φ s, by
        rw [hsubs r Rr]; exact List.mem_map_of_mem hs, rfl⟩⟩⟩
    · intro m' hm'
      rw [mem_periodW] at hm'
      obtain ⟨b, hb, e | ⟨r', h3, e | ⟨s', h4, e⟩⟩⟩ := hm' <;> cases e
      rw [hasets] at hb
      obtain ⟨b, hb', rfl⟩ := List.mem_map.1 hb
      replace hb := hb'
      rw [hreps b (Ra b hb)] at h3
      obtain ⟨r', h3', rfl⟩ := List.mem_map.1 h3
      replace h3 := h3'
      rw [hsubs r' (hc.aset b (Ra b hb) r' h3)] at h4
      rw [hu b hb r' h3 (mem_map_inj _ _ h4)]

/-- C14 for `AdaptationSetType.Clone`. -/
theorem C14_clone_aset (h h' : Heap) (φ : Addr → Addr) (R old : Addr → Prop) (a : Addr)
    (dc : DeepCopy h h' φ R old) (hc : Closed h R) (ha : R a) :
    Isolated h (cloneASet h' (φ a)) φ R old asetView a ∧
    ((cloneASet h' (φ a)).aset (φ a)).parent = none ∧
    (∀ r ∈ (h.aset a).reps, ((cloneASet h' (φ a)).rep (φ r)).parent = some (φ a)) ∧
    (∀ r ∈ (h.aset a).reps, ∀ s ∈ (h.rep r).subs,
      (∀ r' ∈ (h.aset a).reps, s ∈ (h.rep r').subs → r' = r) →
      ((cloneASet h' (φ a)).sub (φ s)).parent = some (φ r)) := by
  have hic : Closed h' (Img φ R) := img_closed dc hc
  unfold cloneASet
  rw [asetSetParents_eq]
  refine ⟨?_, ?_, ?_, ?_⟩
  · exact isolated_of dc hc asetView a (asetView_copy dc hc a ha)
      (fun S a b x h1 h2 h3 => asetView_agree h1 h2 x h3) ha _ (child_asetW hic ⟨a, ha, rfl⟩)
  · have : (applyAll h' (asetW h' (φ a))).aset = h'.aset := by
      have : ∀ ws : List W, (∀ w ∈ ws, ∀ x y, w ≠ .aset x y) → ∀ h', (applyAll h' ws).aset = h'.aset := by
        intro ws
        induction ws with
        | nil => intros; rfl
        | cons w ws ih =>
          intro hw h'
          have e := ih (fun w' hw' => hw w' (List.mem_cons_of_mem _ hw')) (applyW h' w)
          have e2 : (applyW h' w).aset = h'.aset := by
            cases w with
            | aset x y => exact absurd rfl (hw _ (by simp) x y)
            | _ => rfl
          exact e.trans e2
      apply this
      rintro w hw x y rfl
      rw [mem_asetW] at hw; simp at hw
    rw [this, dc.aset_new a ha]
  · intro r hr
    refine rep_parent _ _ _ _ (.inl ?_) ?_
    · rw [mem_asetW]
      exact ⟨φ r, by rw [dc.aset_new a ha]; exact List.mem_map_of_mem hr, .inl rfl⟩
    · intro m' hm'
      rw [mem_asetW] at hm'
      obtain ⟨r', h3, e | ⟨s', h4, e⟩⟩ := hm' <;> cases e
      rfl

  · intro r hr s hs hu
    have hreps : (h'.aset (φ a)).reps = (h.aset a).reps.map φ := by rw [dc.aset_new a ha]
    have hsubs : ∀ p, R p → (h'.rep (φ p)).subs = (h.rep p).subs.map φ := by
      intro p hp; rw [dc.rep_new p hp]
    refine sub_parent _ _ _ _ (.inl ?_) ?_
    · rw [mem_asetW]
      exact ⟨φ r, by rw [hreps]; exact List.mem_map_of_mem hr, .inr ⟨φ s, by
        rw [hsubs r (hc.aset a ha r hr)]; exact List.mem_map_of_mem hs, rfl⟩⟩
    · intro m' hm'
      rw [mem_asetW] at hm'
      obtain ⟨r', h3, e | ⟨s', h4, e⟩⟩ := hm' <;> cases e
      rw [hreps] at h3
      obtain ⟨r', h3', rfl⟩ := List.mem_map.1 h3
      replace h3 := h3'
      rw [hsubs r' (hc.aset a ha r' h3)] at h4
      obtain ⟨y, hy, hxy⟩ := List.mem_map.1 h4
      rw [hu r' h3 (dc.inj _ _ hxy ▸ hy)]

/-- The contract can be met for every heap: copy all addresses below `n` to `n` places higher. -/
def offsetCopy (h : Heap) (n : Nat) : Heap where
  mpd y := if y < n then h.mpd y else { h.mpd (y-n) with periods := (h.mpd (y-n)).periods.map (· + n) }
  period y := if y < n then h.period y else
    { h.period (y-n) with parent := none, asets := (h.period (y-n)).asets.map (· + n) }
  aset y := if y < n then h.aset y else { h.aset (y-n) with parent := none, reps := (h.aset (y-n)).reps.map (· + n) }
  rep y := if y < n then h.rep y else { h.rep (y-n) with parent := none, subs := (h.rep (y-n)).subs.map (· + n) }
  sub y := if y < n then h.sub y else { h.sub (y-n) with parent := none }

theorem offsetCopy_deepCopy (h : Heap) (n : Nat) :
    DeepCopy h (offsetCopy h n) (· + n) (· < n) (· < n) := by
  constructor <;> intros <;> simp_all [offsetCopy] <;> intro hlt <;> exact absurd hlt (Nat.not_lt.2 (Nat.le_add_left _ _))

/-- A complete instance of C14: any heap whose addresses below `n` are closed. -/
example (h : Heap) (n m : Nat) (hc : Closed h (· < n)) (hm : m < n) :
    mpdView (cloneMpd (offsetCopy h n) (m + n)) (m + n) = mpdView h m :=
  (C14_clone_mpd h _ _ _ _ m (offsetCopy_deepCopy h n) hc hm).1.same_content

example : Closed emptyHeap (· < 3) := by constructor <;> simp [emptyHeap]

end Verif.Period
