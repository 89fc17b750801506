import Verif.DurText

/-!
C82, reading: a document read with durations, and with strings for them.
-/
namespace Verif.Bind

open Verif Verif.Xml Verif.FloatText

/-! ### Reading -/

/-- A duration and the text it is read from; zero if there is none. -/
def DurOf (io : FloatIO) (v w : Val) : Prop := ∃ i x, v = .int i ∧ w = .str x ∧ Duration.parse io.arch x = .ok i

/-- Values of attributes: durations and the texts they were read from, otherwise the same. -/
def TRelA (io : FloatIO) : Sch → Val → Val → Prop
  | .simple .duration, v, w => (v = .int 0 ∧ w = .str []) ∨ DurOf io v w
  | .ptr (.simple .duration), v, w =>
    (v = .ptr none ∧ w = .ptr none) ∨ ∃ a b, v = .ptr (some a) ∧ w = .ptr (some b) ∧ DurOf io a b
  | _, v, w => v = w

mutual
/-- A value read, and one of the type with strings for durations read from the same document. -/
def TRel (io : FloatIO) : Sch → Val → Val → Prop
  | .ptr _, .ptr none, .ptr none => True
  | .ptr s, .ptr (some v), .ptr (some w) => TRel io s v w
  | .slice s, .slice l, .slice m => List.Forall₂ (TRel io s) l m
  | .struct _ _ infos subs, .struct xv vs, .struct xw ws => xv = xw ∧ TRels io infos subs vs ws
  | .simple _, v, w => v = w
  | .attr, v, w => v = w
  | .name, v, w => v = w
  | _, _, _ => False
/-- The same for fields. -/
def TRels (io : FloatIO) : List FInfo → List Sch → List Val → List Val → Prop
  | fi :: fis, s :: ss, v :: vs, w :: ws =>
    (v.isAbsent = w.isAbsent ∧ (v.isAbsent = false →
      if fi.mode = .attr then TRelA io s v w else if fi.mode = .elem then TRel io s v w else v = w)) ∧ TRels io fis ss vs ws
  | _, _, [], [] => True
  | _, _, _, _ => False
end

/-- What holds between the values of a field. -/
def TRelF (io : FloatIO) (fi : FInfo) (s : Sch) (v w : Val) : Prop :=
  if fi.mode = .attr then TRelA io s v w else if fi.mode = .elem then TRel io s v w else v = w

/-- The type of a field with strings for durations. -/
def fieldTxt (fi : FInfo) (s : Sch) : Sch := if fi.mode = .attr then attrTxt s else if fi.mode = .elem then s.txt else s

/-- If the second call succeeds, the first gives a related value, or fails with an error of `ParseDuration`. -/
def TSim {α β : Type} (R : α → β → Prop) (a : Except RErr α) (b : Except RErr β) : Prop :=
  ∀ y, b = .ok y → (∃ x, a = .ok x ∧ R x y) ∨ a = .error .duration

theorem TSim.mono {α β : Type} {R Q : α → β → Prop} {a : Except RErr α} {b : Except RErr β} (h : TSim R a b) (hq : ∀ x y, R x y → Q x y) :
    TSim Q a b := fun y hy => (h y hy).imp_left fun ⟨x, h1, h2⟩ => ⟨x, h1, hq x y h2⟩

theorem TSim.step {α β γ δ : Type} {R : α → β → Prop} {Q : γ → δ → Prop} {a : Except RErr α} {b : Except RErr β}
    {A : Except RErr γ} {B : Except RErr δ} (h : TSim R a b) (hok : ∀ x y, R x y → a = .ok x → b = .ok y → TSim Q A B)
    (hd : ∀ y, a = .error .duration → b = .ok y → A = .error .duration) (he : ∀ e, b = .error e → B = .error e) : TSim Q A B := by
  intro z hz
  cases hb : b with
  | error e => rw [he e hb] at hz; cases hz
  | ok y =>
    rcases h y hb with ⟨x, ha, h2⟩ | ha
    · exact hok x y h2 ha hb z hz
    · exact Or.inr (hd y ha hb)

theorem sim_ok {α β : Type} {R : α → β → Prop} {x : α} {y : β} (h : R x y) : TSim R (.ok x) (.ok y) := by
  intro z hz
  injection hz with hz
  subst hz
  exact Or.inl ⟨x, rfl, h⟩

theorem sim_eq {α : Type} {R : α → α → Prop} (a : Except RErr α) (h : ∀ x, R x x) : TSim R a a :=
  fun y hy => Or.inl ⟨y, hy, h y⟩

theorem sim_err {α β : Type} {R : α → β → Prop} {a : Except RErr α} {e : RErr} : TSim R a (.error e) := fun _ hy => by cases hy

theorem relA_refl (io : FloatIO) (s : Sch) (h : attrTxt s = s) (v w : Val) : TRelA io s v w ↔ v = w := by
  unfold TRelA
  split
  · simp [attrTxt] at h
  · simp [attrTxt] at h
  · rfl

theorem durTag_zero {fi : FInfo} {s : Sch} (h : durTag fi s = true) (h2 : (fi.mode != .elem || s.durOk) = true) :
    ∀ e, s ≠ .bad e := by
  rintro e rfl
  unfold durTag at h
  split at h
  · simp [durAttr] at h
  · rename_i hm; simp [hm, Sch.durOk] at h2
  · simp [isAttrs] at h
  · simp [isStr] at h

theorem zero_present (s : Sch) (h : ∀ e, s ≠ .bad e) : s.zero.isAbsent = false := by
  cases s with
  | simple k => cases k <;> rfl
  | bad e => exact absurd rfl (h e)
  | _ => simp [Sch.zero, Val.isAbsent]

mutual
theorem zero_rel (io : FloatIO) : ∀ s : Sch, s.durOk = true → TRel io s s.zero s.txt.zero
  | .simple k, _ => by simp [TRel, Sch.txt]
  | .name, _ => by simp [TRel, Sch.txt]
  | .attr, _ => by simp [TRel, Sch.txt]
  | .bad e, h => by simp [Sch.durOk] at h
  | .ptr s, _ => by simp [TRel, Sch.txt, Sch.zero]
  | .slice s, _ => by simp [TRel, Sch.txt, Sch.zero]
  | .struct tn xn F S, h => by
    simp only [Sch.durOk] at h
    simp only [TRel, Sch.txt, Sch.zero, true_and]
    exact zeros_rels io F S h
theorem zeros_rels (io : FloatIO) : ∀ (F : List FInfo) (S : List Sch), durOks F S = true → TRels io F S (zeros F S) (zeros F (txts F S))
  | [], S, _ => by simp [zeros, TRels]
  | fi :: F, [], _ => by simp [zeros, txts, TRels]
  | fi :: F, s :: S, h => by
    simp only [durOks, Bool.and_eq_true] at h
    simp only [zeros, txts, TRels]
    refine ⟨?_, zeros_rels io F S h.2⟩
    by_cases hg : fi.grp = none
    swap
    · simp [hg, Val.isAbsent]
    simp only [hg, if_true]
    have hz := zero_present s (durTag_zero h.1.1 h.1.2)
    by_cases hm : fi.mode = .attr
    · simp only [hm, if_true]
      rcases attr_cases s with rfl | rfl | ⟨e1, -⟩
      · exact ⟨by decide, fun _ => Or.inl ⟨rfl, rfl⟩⟩
      · exact ⟨by simp [attrTxt, Sch.zero], fun _ => Or.inl ⟨rfl, rfl⟩⟩
      · rw [e1]
        exact ⟨rfl, fun _ => (relA_refl io s e1 _ _).2 rfl⟩
    · by_cases he : fi.mode = .elem
      · simp only [he, reduceCtorEq, if_false, if_true]
        have hd : s.durOk = true := by simpa [he] using h.1.2
        refine ⟨?_, fun _ => zero_rel io s hd⟩
        rw [hz]
        cases s <;> simp_all [Sch.txt, Sch.zero, Val.isAbsent, Sch.durOk]
      · simp [hm, he]
end

theorem zero_relF (io : FloatIO) (fi : FInfo) (s : Sch) (h1 : durTag fi s = true) (h2 : (fi.mode != .elem || s.durOk) = true) :
    TRelF io fi s s.zero (fieldTxt fi s).zero ∧ s.zero.isAbsent = false ∧ (fieldTxt fi s).zero.isAbsent = false := by
  have h := zeros_rels io [{ fi with grp := none }] [s] (by simp [durOks, durTag, keeps, durAttr] at h1 h2 ⊢; exact ⟨h1, h2⟩)
  have hz := zero_present s (durTag_zero h1 h2)
  simp only [zeros, txts, TRels, if_true, and_true] at h
  refine ⟨h.2 hz, hz, ?_⟩
  rw [hz] at h
  exact h.1.symm

theorem txts_get : ∀ (F : List FInfo) (S : List Sch) (i : Nat) (f : FInfo), F[i]? = some f → (txts F S)[i]? = S[i]?.map (fieldTxt f)
  | [], S, i, f, h => by simp at h
  | fi :: F, [], i, f, h => by simp [txts]
  | fi :: F, s :: S, 0, f, h => by
    simp only [List.getElem?_cons_zero, Option.some.injEq] at h
    subst h
    simp [txts, fieldTxt]
  | fi :: F, s :: S, i + 1, f, h => by
    simp only [txts, List.getElem?_cons_succ] at h ⊢
    exact txts_get F S i f h

theorem durOks_get : ∀ (F : List FInfo) (S : List Sch) (i : Nat) (f : FInfo) (s : Sch), durOks F S = true → F[i]? = some f →
    S[i]? = some s → durTag f s = true ∧ (f.mode != .elem || s.durOk) = true
  | [], S, i, f, s, _, h, _ => by simp at h
  | fi :: F, [], i, f, s, _, _, h => by simp at h
  | fi :: F, s' :: S, 0, f, s, hd, h1, h2 => by
    simp only [List.getElem?_cons_zero, Option.some.injEq] at h1 h2
    subst h1; subst h2
    simp only [durOks, Bool.and_eq_true] at hd
    exact hd.1
  | fi :: F, s' :: S, i + 1, f, s, hd, h1, h2 => by
    simp only [List.getElem?_cons_succ, durOks, Bool.and_eq_true] at h1 h2 hd
    exact durOks_get F S i f s hd.2 h1 h2

theorem rels_get {io : FloatIO} : ∀ (F : List FInfo) (S : List Sch) (vs ws : List Val) (i : Nat) (f : FInfo) (s : Sch) (w : Val),
    TRels io F S vs ws → F[i]? = some f → S[i]? = some s → ws[i]? = some w →
    ∃ v, vs[i]? = some v ∧ v.isAbsent = w.isAbsent ∧ (v.isAbsent = false → TRelF io f s v w)
  | [], S, vs, ws, i, f, s, w, _, h, _, _ => by simp at h
  | fi :: F, [], vs, ws, i, f, s, w, _, _, h, _ => by simp at h
  | fi :: F, s' :: S, vs, [], i, f, s, w, _, _, _, h => by simp at h
  | fi :: F, s' :: S, [], w' :: ws, i, f, s, w, h, _, _, _ => by simp [TRels] at h
  | fi :: F, s' :: S, v :: vs, w' :: ws, 0, f, s, w, h, h1, h2, h3 => by
    simp only [List.getElem?_cons_zero, Option.some.injEq] at h1 h2 h3
    subst h1; subst h2; subst h3
    simp only [TRels] at h
    exact ⟨v, by simp, h.1.1, h.1.2⟩
  | fi :: F, s' :: S, v :: vs, w' :: ws, i + 1, f, s, w, h, h1, h2, h3 => by
    simp only [List.getElem?_cons_succ] at h1 h2 h3 ⊢
    simp only [TRels] at h
    exact rels_get F S vs ws i f s w h.2 h1 h2 h3

theorem rels_set {io : FloatIO} : ∀ (F : List FInfo) (S : List Sch) (vs ws : List Val) (i : Nat) (f : FInfo) (s : Sch) (v w : Val),
    TRels io F S vs ws → F[i]? = some f → S[i]? = some s → v.isAbsent = false → w.isAbsent = false → TRelF io f s v w →
    TRels io F S (vs.set i v) (ws.set i w)
  | [], S, vs, ws, i, f, s, v, w, _, h, _, _, _, _ => by simp at h
  | fi :: F, [], vs, ws, i, f, s, v, w, _, _, h, _, _, _ => by simp at h
  | fi :: F, s' :: S, vs, [], i, f, s, v, w, h, _, _, _, _, _ => by cases vs <;> simp [TRels] at h ⊢
  | fi :: F, s' :: S, [], w' :: ws, i, f, s, v, w, h, _, _, _, _, _ => by simp [TRels] at h
  | fi :: F, s' :: S, v' :: vs, w' :: ws, 0, f, s, v, w, h, h1, h2, hv, hw, hr => by
    simp only [List.getElem?_cons_zero, Option.some.injEq] at h1 h2
    subst h1; subst h2
    simp only [TRels, List.set_cons_zero] at h ⊢
    exact ⟨⟨by rw [hv, hw], fun _ => hr⟩, h.2⟩
  | fi :: F, s' :: S, v' :: vs, w' :: ws, i + 1, f, s, v, w, h, h1, h2, hv, hw, hr => by
    simp only [List.getElem?_cons_succ] at h1 h2
    simp only [TRels, List.set_cons_succ] at h ⊢
    exact ⟨h.1, rels_set F S vs ws i f s v w h.2 h1 h2 hv hw hr⟩

theorem rels_alloc {io : FloatIO} (g : Option Nat) : ∀ (F : List FInfo) (S : List Sch) (vs ws : List Val), durOks F S = true →
    TRels io F S vs ws → TRels io F S (initGroup.allocGroup g F S vs) (initGroup.allocGroup g F (txts F S) ws)
  | [], S, vs, ws, _, h => by simpa [initGroup.allocGroup] using h
  | fi :: F, [], vs, ws, _, h => by simpa [initGroup.allocGroup, txts] using h
  | fi :: F, s :: S, [], ws, _, h => by cases ws <;> simp [TRels, initGroup.allocGroup] at h ⊢
  | fi :: F, s :: S, v :: vs, [], _, h => by simp [TRels] at h
  | fi :: F, s :: S, v :: vs, w :: ws, hd, h => by
    simp only [durOks, Bool.and_eq_true] at hd
    simp only [TRels] at h
    simp only [initGroup.allocGroup, txts, TRels]
    refine ⟨?_, rels_alloc g F S vs ws hd.2 h.2⟩
    by_cases hg : fi.grp = g
    · simp only [hg, if_true]
      obtain ⟨h1, h2, h3⟩ := zero_relF io fi s hd.1.1 hd.1.2
      unfold fieldTxt at h1 h3
      exact ⟨by rw [h2, h3], fun _ => h1⟩
    · simp only [hg, if_false]
      exact h.1

theorem alloc_get (g : Option Nat) : ∀ (F : List FInfo) (S : List Sch) (vs : List Val) (i : Nat) (f : FInfo) (s : Sch) (v : Val),
    F[i]? = some f → S[i]? = some s → (initGroup.allocGroup g F S vs)[i]? = some v → f.grp = g → v = s.zero
  | [], S, vs, i, f, s, v, h, _, _, _ => by simp at h
  | fi :: F, [], vs, i, f, s, v, _, h, _, _ => by simp at h
  | fi :: F, s' :: S, [], i, f, s, v, _, _, h, _ => by simp [initGroup.allocGroup] at h
  | fi :: F, s' :: S, v' :: vs, 0, f, s, v, h1, h2, h3, hg => by
    simp only [List.getElem?_cons_zero, Option.some.injEq, initGroup.allocGroup] at h1 h2 h3
    subst h1; subst h2
    rw [if_pos hg] at h3
    exact h3.symm
  | fi :: F, s' :: S, v' :: vs, i + 1, f, s, v, h1, h2, h3, hg => by
    simp only [List.getElem?_cons_succ, initGroup.allocGroup] at h1 h2 h3
    exact alloc_get g F S vs i f s v h1 h2 h3 hg

theorem rels_init {io : FloatIO} {F : List FInfo} {S : List Sch} {vs ws : List Val} (hd : durOks F S = true) (h : TRels io F S vs ws)
    {i : Nat} {f : FInfo} {s : Sch} {w : Val} (hf : F[i]? = some f) (hs : S[i]? = some s)
    (hw : (initGroup F (txts F S) ws i)[i]? = some w) :
    TRels io F S (initGroup F S vs i) (initGroup F (txts F S) ws i) ∧
      ∃ v, (initGroup F S vs i)[i]? = some v ∧ TRelF io f s v w := by
  obtain ⟨hd1, hd2⟩ := durOks_get F S i f s hd hf hs
  obtain ⟨z1, z2, z3⟩ := zero_relF io f s hd1 hd2
  cases hwi : ws[i]? with
  | none =>
    exfalso
    unfold initGroup at hw
    rw [hwi] at hw
    simp only at hw
    rw [hwi] at hw
    cases hw
  | some w0 =>
    obtain ⟨v0, hv0, ha, hr⟩ := rels_get F S vs ws i f s w0 h hf hs hwi
    have e1 : initGroup F S vs i = if v0.isAbsent then initGroup.allocGroup f.grp F S vs else vs := by
      unfold initGroup; rw [hv0, hf]
    have e2 : initGroup F (txts F S) ws i = if w0.isAbsent then initGroup.allocGroup f.grp F (txts F S) ws else ws := by
      unfold initGroup; rw [hwi, hf]
    cases hv : v0.isAbsent with
    | true =>
      rw [hv] at ha
      rw [hv] at e1
      rw [← ha] at e2
      simp only [if_true] at e1 e2
      have hrel := rels_alloc (io := io) f.grp F S vs ws hd h
      rw [e1, e2]
      rw [e2] at hw
      refine ⟨hrel, ?_⟩
      obtain ⟨v, h1, h2, h3⟩ := rels_get F S _ _ i f s w hrel hf hs hw
      have h4 := alloc_get f.grp F S vs i f s v hf hs h1 rfl
      exact ⟨v, h1, h3 (by rw [h4]; exact z2)⟩
    | false =>
      rw [hv] at ha
      rw [hv] at e1
      rw [← ha] at e2
      simp only [Bool.false_eq_true, if_false] at e1 e2
      rw [e1, e2]
      rw [e2, hwi] at hw
      injection hw with hw
      subst hw
      exact ⟨h, v0, hv0, hr hv⟩

theorem upd_sim {io : FloatIO} {F : List FInfo} {S : List Sch} {vs ws : List Val} (hd : durOks F S = true) (h : TRels io F S vs ws)
    {i : Nat} {f : FInfo} (hf : F[i]? = some f) {k k' : Sch → Val → Except RErr Val}
    (hk : ∀ s v w, S[i]? = some s → TRelF io f s v w →
      TSim (fun v w => v.isAbsent = false ∧ w.isAbsent = false ∧ TRelF io f s v w) (k s v) (k' (fieldTxt f s) w)) :
    TSim (TRels io F S) (updField F S vs i k) (updField F (txts F S) ws i k') := by
  intro y hy
  unfold updField at hy
  rw [txts_get F S i f hf] at hy
  cases hs : S[i]? with
  | none => rw [hs] at hy; simp at hy
  | some s =>
    rw [hs] at hy
    simp only [Option.map_some] at hy
    cases hw : (initGroup F (txts F S) ws i)[i]? with
    | none => rw [hw] at hy; simp at hy
    | some w =>
      rw [hw] at hy
      simp only at hy
      obtain ⟨hrel, v, hv, hvw⟩ := rels_init hd h hf hs hw
      have hk := hk s v w hs hvw
      cases hb : k' (fieldTxt f s) w with
      | error e => rw [hb] at hy; simp at hy
      | ok w' =>
        rw [hb] at hy
        simp only at hy
        injection hy with hy
        subst hy
        unfold updField
        rw [hs, hv]
        simp only
        rcases hk w' hb with ⟨v', h1, h2, h3, h4⟩ | h1
        · rw [h1]
          exact Or.inl ⟨_, rfl, rels_set F S _ _ i f s v' w' hrel hf hs h2 h3 h4⟩
        · rw [h1]
          exact Or.inr rfl

/-- A field that takes an attribute. -/
theorem attrField_takes {F : List FInfo} {n : Name} {i : Nat} (h : attrField F n = some i) :
    ∃ f, F[i]? = some f ∧ (f.mode = .attr ∨ f.mode = .anyAttr) := by
  obtain ⟨f, h1, h2⟩ := attrField_some h
  exact ⟨f, h1, h2.imp (fun h => h.1) (fun h => h.1)⟩

theorem copySimple_present (io : FloatIO) (k : Kind) (x : Bytes) (w : Val) (h : copySimple io k x = .ok w) :
    w.isAbsent = false := by
  unfold copySimple at h
  cases k <;> (try dsimp only at h) <;> (repeat' split at h) <;> first | (cases h; done) | (injection h with h; subst h; rfl)

theorem readAttr_present (io : FloatIO) : ∀ (s : Sch) (v : Val) (a : Attr) (w : Val), readAttr io s v a = .ok w →
    w.isAbsent = false := by
  intro s v a w h
  unfold readAttr at h
  split at h
  · rename_i k _
    unfold readSimpleAttr at h
    split at h
    · split at h
      · injection h with h; subst h; rfl
      · cases h
    · split at h
      · injection h with h; subst h; rfl
      · split at h
        · injection h with h; subst h; rfl
        · cases h
    · exact copySimple_present io _ _ w h
  · cases h
  all_goals first
    | (split at h <;> first | (cases h; done) | (injection h with h; subst h; rfl))
    | (injection h with h; subst h; rfl)
    | cases h

theorem body_present {io : FloatIO} {n : Name} {as : List Attr} {data inner : Bytes}
    {rk : Nat → List FInfo → List Sch → List Val → Except RErr (List Val)} {d : Nat} {s : Sch} {v w : Val}
    (h : readBody io n as data inner rk d s v = .ok w) : w.isAbsent = false := by
  unfold readBody at h
  split at h
  · exact copySimple_present io _ _ w h
  · repeat' split at h
    all_goals first | (cases h; done) | (injection h with h; subst h; rfl)
  · cases h
  · cases h

theorem place_present {f : Nat → Sch → Val → Except RErr Val} (hf : ∀ d s v w, f d s v = .ok w → w.isAbsent = false) {top : Bool}
    {d : Nat} {s : Sch} {v w : Val} (h : place f top d s v = .ok w) : w.isAbsent = false := by
  have wp : ∀ r, wrapPtr r = .ok w → w.isAbsent = false := by
    intro r h
    cases r with
    | error e => cases h
    | ok x => injection h with h; subst h; rfl
  have ws : ∀ l r, wrapSlice l r = .ok w → w.isAbsent = false := by
    intro l r h
    cases r with
    | error e => cases h
    | ok x => injection h with h; subst h; rfl
  unfold place at h
  split at h
  · split at h
    · cases h
    · exact wp _ h
  · split at h
    · cases h
    · exact ws _ _ h
  · exact ws _ _ h
  · split at h
    · cases h
    · exact hf _ _ _ _ h
  · exact hf _ _ _ _ h

theorem readT_present {io : FloatIO} {top : Bool} {d : Nat} {s : Sch} {v w : Val} {t : XTree} (h : readT io top d s v t = .ok w) :
    w.isAbsent = false := by
  cases t with
  | leaf _ _ _ => simp only [readT] at h; cases h
  | elem n as b a kids en eb ea =>
    simp only [readT] at h
    exact place_present (fun _ _ _ _ h => body_present h) h

/-- Reading an attribute. -/
theorem readAttr_sim (io : FloatIO) (f : FInfo) (hm : f.mode = .attr ∨ f.mode = .anyAttr) (s : Sch) (v w : Val) (a : Attr)
    (h : TRelF io f s v w) : TSim (fun v w => v.isAbsent = false ∧ w.isAbsent = false ∧ TRelF io f s v w)
      (readAttr io s v a) (readAttr io (fieldTxt f s) w a) := by
  have same : v = w → fieldTxt f s = s → (∀ x y : Val, TRelF io f s x y ↔ x = y) →
      TSim (fun v w => v.isAbsent = false ∧ w.isAbsent = false ∧ TRelF io f s v w)
        (readAttr io s v a) (readAttr io (fieldTxt f s) w a) := by
    intro e1 e2 e3
    rw [e2, e1]
    intro y hy
    have := readAttr_present io s w a y hy
    exact Or.inl ⟨y, hy, this, this, (e3 y y).2 rfl⟩
  have dur : ∀ x : Bytes, TSim (fun v w => DurOf io v w) (readSimpleAttr io .duration x) (readSimpleAttr io .str x) := by
    intro x y hy
    simp only [readSimpleAttr, copySimple] at hy ⊢
    injection hy with hy
    subst hy
    cases hp : Duration.parse io.arch x with
    | error e => exact Or.inr rfl
    | ok d => exact Or.inl ⟨_, rfl, d, x, rfl, rfl, hp⟩
  rcases hm with hm | hm
  swap
  · refine same ?_ (by simp [fieldTxt, hm]) (by simp [TRelF, hm])
    simpa [TRelF, hm] using h
  rcases attr_cases s with rfl | rfl | ⟨e1, -⟩
  · have e : fieldTxt f (.simple .duration) = .simple .str := by simp [fieldTxt, hm, attrTxt]
    rw [e]
    simp only [readAttr]
    refine (dur a.value).mono ?_
    intro x y hxy
    have := hxy
    obtain ⟨i, z, rfl, rfl, -⟩ := this
    refine ⟨rfl, rfl, ?_⟩
    simp only [TRelF, hm, if_true]
    exact Or.inr hxy
  · have e : fieldTxt f (.ptr (.simple .duration)) = .ptr (.simple .str) := by simp [fieldTxt, hm, attrTxt]
    rw [e]
    have e1 : ∀ k v, readAttr io (.ptr (.simple k)) v a = match readSimpleAttr io k a.value with
        | .ok w => .ok (.ptr (some w))
        | .error e => .error e := by
      intro k v
      cases v with
      | ptr o => cases o <;> simp only [readAttr] <;> cases readSimpleAttr io k a.value <;> rfl
      | _ => simp only [readAttr]; cases readSimpleAttr io k a.value <;> rfl
    rw [e1, e1]
    intro y hy
    cases hb : readSimpleAttr io .str a.value with
    | error e => rw [hb] at hy; cases hy
    | ok b =>
      rw [hb] at hy
      simp only at hy
      injection hy with hy
      subst hy
      rcases dur a.value b hb with ⟨x, h1, h2⟩ | h1
      · rw [h1]
        refine Or.inl ⟨_, rfl, rfl, rfl, ?_⟩
        simp only [TRelF, hm, if_true]
        exact Or.inr ⟨x, b, rfl, rfl, h2⟩
      · rw [h1]; exact Or.inr rfl
  · refine same ?_ (by simp [fieldTxt, hm, e1]) fun x y => ?_
    · simp only [TRelF, hm, if_true] at h
      exact (relA_refl io s e1 v w).1 h
    · simp only [TRelF, hm, if_true]
      exact relA_refl io s e1 x y

theorem readAttrs_sim (io : FloatIO) (F : List FInfo) (S : List Sch) (hd : durOks F S = true) : ∀ (as : List Attr) (vs ws : List Val),
    TRels io F S vs ws → TSim (TRels io F S) (readAttrs io F S vs as) (readAttrs io F (txts F S) ws as)
  | [], vs, ws, h => by simp only [readAttrs]; exact sim_ok h
  | a :: l, vs, ws, h => by
    simp only [readAttrs]
    cases hi : attrField F a.name with
    | none => exact readAttrs_sim io F S hd l vs ws h
    | some i =>
      obtain ⟨f, hf, hm⟩ := attrField_takes hi
      have hu : TSim (TRels io F S) (updField F S vs i fun s v => readAttr io s v a)
          (updField F (txts F S) ws i fun s v => readAttr io s v a) :=
        upd_sim hd h hf fun s v w _ hvw => readAttr_sim io f hm s v w a hvw
      refine hu.step (fun x y hxy ha hb => ?_) (fun y ha hb => ?_) (fun e hb => ?_)
      · simp only [ha, hb]; exact readAttrs_sim io F S hd l x y hxy
      · simp only [ha]
      · simp only [hb]

/-- The end of a struct. -/
theorem finish_sim (io : FloatIO) (F : List FInfo) (S : List Sch) (hd : durOks F S = true) (vs ws : List Val) (data inner : Bytes)
    (h : TRels io F S vs ws) : TSim (TRels io F S) (finishStruct io F S vs data inner) (finishStruct io F (txts F S) ws data inner) := by
  have str : ∀ (f : FInfo) (i : Nat) (s : Sch), F[i]? = some f → (f.mode = .chardata ∨ f.mode = .innerxml) → S[i]? = some s →
      s = .simple .str ∧ fieldTxt f s = s ∧ ∀ v w, TRelF io f s v w ↔ v = w := by
    intro f i s hf hm hs
    have h1 := (durOks_get F S i f s hd hf hs).1
    have h2 : isStr s = true := by
      rcases hm with hm | hm <;> simpa only [durTag, hm] using h1
    refine ⟨?_, ?_, ?_⟩
    · unfold isStr at h2
      split at h2
      · rfl
      · cases h2
    · rcases hm with hm | hm <;> simp [fieldTxt, hm]
    · rcases hm with hm | hm <;> simp [TRelF, hm]
  unfold finishStruct
  dsimp only
  have h2 : ∀ x y, TRels io F S x y → TSim (TRels io F S)
      (match modeField F .innerxml with
        | none => .ok x
        | some i => updField F S x i fun s v => match s with
          | .simple .str => .ok (.str inner)
          | _ => .ok v)
      (match modeField F .innerxml with
        | none => .ok y
        | some i => updField F (txts F S) y i fun s v => match s with
          | .simple .str => .ok (.str inner)
          | _ => .ok v) := by
    intro x y hxy
    cases hi : modeField F .innerxml with
    | none => exact sim_ok hxy
    | some i =>
      obtain ⟨f, hf, hm⟩ := modeField_some hi
      refine upd_sim hd hxy hf fun s v w hs hvw => ?_
      obtain ⟨rfl, e2, e3⟩ := str f i s hf (Or.inr hm) hs
      rw [e2]
      exact sim_ok ⟨rfl, rfl, (e3 _ _).2 rfl⟩
  cases hi : modeField F .chardata with
  | none => exact h2 vs ws h
  | some i =>
    obtain ⟨f, hf, hm⟩ := modeField_some hi
    have h1 : TSim (TRels io F S) (updField F S vs i fun s _ => copyValue io s data)
        (updField F (txts F S) ws i fun s _ => copyValue io s data) := by
      refine upd_sim hd h hf fun s v w hs hvw => ?_
      obtain ⟨rfl, e2, e3⟩ := str f i s hf (Or.inl hm) hs
      rw [e2]
      simp only [copyValue, copySimple]
      exact sim_ok ⟨rfl, rfl, (e3 _ _).2 rfl⟩
    dsimp only
    refine h1.step (fun x y hxy ha hb => ?_) (fun y ha hb => by rw [ha]) (fun e hb => by rw [hb])
    rw [ha, hb]
    exact h2 x y hxy

/-- An element that is read. -/
theorem body_sim (io : FloatIO) (n : Name) (as : List Attr) (data inner : Bytes)
    (rk : Nat → List FInfo → List Sch → List Val → Except RErr (List Val))
    (hk : ∀ d F S vs ws, durOks F S = true → TRels io F S vs ws → TSim (TRels io F S) (rk d F S vs) (rk d F (txts F S) ws))
    (d : Nat) (s : Sch) (v w : Val) (hd : s.durOk = true) (h : TRel io s v w) :
    TSim (TRel io s) (readBody io n as data inner rk d s v) (readBody io n as data inner rk d s.txt w) := by
  cases s with
  | simple k =>
    simp only [Sch.txt, readBody]
    exact sim_eq _ fun x => by simp only [TRel]
  | struct tn xn F S =>
    cases v with
    | struct xv vs =>
      cases w with
      | struct xw ws =>
        simp only [Sch.durOk] at hd
        simp only [TRel] at h
        obtain ⟨rfl, h⟩ := h
        simp only [Sch.txt, readBody]
        cases checkName xn n with
        | error e => exact sim_err
        | ok u =>
          dsimp only
          refine (readAttrs_sim io F S hd as vs ws h).step (fun v1 w1 h1 ha hb => ?_) (fun _ ha _ => by rw [ha]) (fun _ hb => by rw [hb])
          rw [ha, hb]
          dsimp only
          refine (hk d F S v1 w1 hd h1).step (fun v2 w2 h2 ha hb => ?_) (fun _ ha _ => by rw [ha]) (fun _ hb => by rw [hb])
          rw [ha, hb]
          dsimp only
          refine (finish_sim io F S hd v2 w2 data inner h2).step (fun v3 w3 h3 ha hb => ?_) (fun _ ha _ => by rw [ha])
            (fun _ hb => by rw [hb])
          rw [ha, hb]
          exact sim_ok (by simp only [TRel]; exact ⟨trivial, h3⟩)
      | _ => simp [TRel] at h
    | _ => cases w <;> simp [TRel] at h
  | bad e => simp [Sch.durOk] at hd
  | _ => simp only [Sch.txt, readBody]; exact sim_err

theorem deref_sim (io : FloatIO) (s : Sch) (v w : Val) (hd : s.durOk = true) (h : TRel io (.ptr s) v w) :
    TRel io s (v.deref s) (w.deref s.txt) := by
  cases v with
  | ptr o =>
    cases w with
    | ptr p => cases o <;> cases p <;> simp only [TRel] at h <;> first | exact zero_rel io s hd | exact h
    | _ => simp [TRel] at h
  | _ => simp [TRel] at h

theorem wrapPtr_sim {io : FloatIO} {s : Sch} {a b : Except RErr Val} (h : TSim (TRel io s) a b) :
    TSim (TRel io (.ptr s)) (wrapPtr a) (wrapPtr b) := by
  intro y hy
  cases b with
  | error e => cases hy
  | ok w =>
    injection hy with hy
    subst hy
    rcases h w rfl with ⟨x, rfl, h2⟩ | rfl
    · exact Or.inl ⟨_, rfl, by simpa only [TRel] using h2⟩
    · exact Or.inr rfl

theorem wrapSlice_sim {io : FloatIO} {s : Sch} {l m : List Val} {a b : Except RErr Val} (hl : List.Forall₂ (TRel io s) l m)
    (h : TSim (TRel io s) a b) : TSim (TRel io (.slice s)) (wrapSlice l a) (wrapSlice m b) := by
  intro y hy
  cases b with
  | error e => cases hy
  | ok w =>
    injection hy with hy
    subst hy
    rcases h w rfl with ⟨x, rfl, h2⟩ | rfl
    · refine Or.inl ⟨_, rfl, ?_⟩
      simp only [TRel]
      exact List.rel_append hl (List.Forall₂.cons h2 List.Forall₂.nil)
    · exact Or.inr rfl

/-- Pointers and lists. -/
theorem place_sim (io : FloatIO) (f : Nat → Sch → Val → Except RErr Val)
    (hf : ∀ d s v w, s.durOk = true → TRel io s v w → TSim (TRel io s) (f d s v) (f d s.txt w)) :
    ∀ (s : Sch) (top : Bool) (d : Nat) (v w : Val), s.durOk = true → TRel io s v w →
      TSim (TRel io s) (place f top d s v) (place f top d s.txt w)
  | .ptr s, true, d, v, w, hd, h => by
    simp only [Sch.txt, place]
    split
    · exact sim_err
    · exact wrapPtr_sim (place_sim io f hf s false d _ _ (by simpa only [Sch.durOk] using hd)
        (deref_sim io s v w (by simpa only [Sch.durOk] using hd) h))
  | .ptr s, false, d, v, w, hd, h => by
    have := hf d (.ptr s) v w hd h
    simpa only [Sch.txt, place] using this
  | .slice s, top, d, v, w, hd, h => by
    cases v with
    | slice l =>
      cases w with
      | slice m =>
        have hs : s.durOk = true := by simpa only [Sch.durOk] using hd
        simp only [TRel] at h
        cases top with
        | true =>
          simp only [Sch.txt, place]
          split
          · exact sim_err
          · exact wrapSlice_sim h (place_sim io f hf s true (d + 1) _ _ hs (zero_rel io s hs))
        | false =>
          simp only [Sch.txt, place]
          exact wrapSlice_sim h (place_sim io f hf s true (d + 1) _ _ hs (zero_rel io s hs))
      | _ => simp [TRel] at h
    | _ => cases w <;> simp [TRel] at h
  | .simple k, top, d, v, w, hd, h => by
    have := hf d (.simple k) v w hd h
    cases top <;> simp only [Sch.txt, place] at this ⊢
    · exact this
    · split
      · exact sim_err
      · exact this
  | .name, top, d, v, w, hd, h => by
    have := hf d .name v w hd h
    cases top <;> simp only [Sch.txt, place] at this ⊢
    · exact this
    · split
      · exact sim_err
      · exact this
  | .attr, top, d, v, w, hd, h => by
    have := hf d .attr v w hd h
    cases top <;> simp only [Sch.txt, place] at this ⊢
    · exact this
    · split
      · exact sim_err
      · exact this
  | .bad e, top, d, v, w, hd, h => by simp [Sch.durOk] at hd
  | .struct tn xn F S, top, d, v, w, hd, h => by
    have := hf d (.struct tn xn F S) v w hd h
    cases top <;> simp only [Sch.txt, place] at this ⊢
    · exact this
    · split
      · exact sim_err
      · exact this

mutual
/-- Reading an element. -/
theorem readT_sim (io : FloatIO) : ∀ (t : XTree) (top : Bool) (d : Nat) (s : Sch) (v w : Val), s.durOk = true → TRel io s v w →
    TSim (TRel io s) (readT io top d s v t) (readT io top d s.txt w t)
  | .leaf _ _ _, _, _, _, _, _, _, _ => by simp only [readT]; exact sim_err
  | .elem n as _ after kids _ eb _, top, d, s, v, w, hd, h => by
    simp only [readT]
    refine place_sim io _ (fun d s v w hd h => body_sim io n as _ _ _ (fun d F S vs ws hd h => ?_) d s v w hd h) s top d v w hd h
    exact readKids_sim io kids d F S hd vs ws h
theorem readKids_sim (io : FloatIO) : ∀ (l : List XTree) (d : Nat) (F : List FInfo) (S : List Sch), durOks F S = true →
    ∀ (vs ws : List Val), TRels io F S vs ws → TSim (TRels io F S) (readKids io d F S vs l) (readKids io d F (txts F S) ws l)
  | [], d, F, S, hd, vs, ws, h => by simp only [readKids]; exact sim_ok h
  | .leaf _ _ _ :: l, d, F, S, hd, vs, ws, h => by
    simp only [readKids]
    exact readKids_sim io l d F S hd vs ws h
  | .elem n as b a kids en eb ea :: l, d, F, S, hd, vs, ws, h => by
    simp only [readKids]
    cases hi : elemField F n with
    | none => exact readKids_sim io l d F S hd vs ws h
    | some i =>
      obtain ⟨f, hf, hm⟩ := elemField_some hi
      have hm : f.mode = .elem := hm.1
      refine TSim.step (R := TRels io F S) (upd_sim hd h hf (k := fun s v => readT io true (d + 1) s v (.elem n as b a kids en eb ea))
        (k' := fun s v => readT io true (d + 1) s v (.elem n as b a kids en eb ea)) fun s v w hs hvw => ?_)
        (fun x y hxy ha hb => by simp only [ha, hb]; exact readKids_sim io l d F S hd x y hxy) (fun _ ha _ => by simp only [ha])
        (fun _ hb => by simp only [hb])
      have hds : s.durOk = true := by simpa [hm] using (durOks_get F S i f s hd hf hs).2
      have e : fieldTxt f s = s.txt := by simp [fieldTxt, hm]
      rw [e]
      have hr : TRel io s v w := by simpa [TRelF, hm] using hvw
      intro y hy
      rcases readT_sim io (.elem n as b a kids en eb ea) true (d + 1) s v w hds hr y hy with ⟨x, h1, h2⟩ | h1
      · exact Or.inl ⟨x, h1, readT_present h1, readT_present hy, by simpa [TRelF, hm] using h2⟩
      · exact Or.inr h1
end

end Verif.Bind
