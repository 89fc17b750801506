import Verif.NsSpec
import Verif.MarshalOk

/-!
Elements written for a value that satisfies `NsOk` keep their names.
-/
namespace Verif.Bind

open Verif.Xml

/-! ### Pairs -/

structure PairsOk (P : Pairs) : Prop where
  name : ∀ p u, (p, u) ∈ P → NCName p ∧ startsXml p = false
  uri : ∀ p u, (p, u) ∈ P → u ≠ [] ∧ u ≠ xmlURL ∧ u ≠ xmlnsURL ∧ clean u = u
  fwd : ∀ p u v, (p, u) ∈ P → (p, v) ∈ P → u = v
  bwd : ∀ p q u, (p, u) ∈ P → (q, u) ∈ P → p = q

theorem pairOk_iff (p u : Bytes) : pairOk (p, u) = true ↔
    (NCName p ∧ startsXml p = false) ∧ u ≠ [] ∧ u ≠ xmlURL ∧ u ≠ xmlnsURL ∧ clean u = u := by
  simp only [pairOk, Bool.and_eq_true, decide_eq_true_eq, Bool.not_eq_true', bne_iff_ne, beq_iff_eq]
  tauto

theorem PairsOk.of {P : Pairs} (h : pairsOk P = true) : PairsOk P := by
  simp only [pairsOk, List.all_eq_true, Bool.and_eq_true, beq_iff_eq] at h
  have h1 : ∀ p u, (p, u) ∈ P → (NCName p ∧ startsXml p = false) ∧ u ≠ [] ∧ u ≠ xmlURL ∧ u ≠ xmlnsURL ∧ clean u = u :=
    fun p u hp => (pairOk_iff p u).1 (h _ hp).1
  refine ⟨fun p u hp => (h1 p u hp).1, fun p u hp => (h1 p u hp).2, ?_, ?_⟩
  · intro p u v h1 h2
    have := (h _ h1).2 _ h2
    simpa using this.symm
  · intro p q u h1 h2
    have := (h _ h1).2 _ h2
    simpa using this

theorem PairsOk.append {A X T : Pairs} {L : List Bytes} (hX : extOk A X L = true) (hT : pairsOk T = true)
    (hA : ∀ x ∈ T, x ∈ A) : PairsOk (T ++ X) := by
  simp only [extOk, Bool.and_eq_true, List.all_eq_true, beq_iff_eq, decide_eq_true_eq] at hX
  have h1 := PairsOk.of hT
  have h2 := PairsOk.of hX.1
  have h3 : ∀ p u q v, (p, u) ∈ X → (q, v) ∈ T → (p = q ↔ u = v) := by
    intro p u q v hx ht
    have := (hX.2 _ hx).2 _ (hA _ ht)
    dsimp only at this
    constructor
    · intro e; rw [beq_iff_eq.2 e] at this; simpa using this.symm
    · intro e; rw [beq_iff_eq.2 e] at this; simpa using this
  refine ⟨?_, ?_, ?_, ?_⟩
  · intro p u h
    rcases List.mem_append.1 h with h | h
    · exact h1.name p u h
    · exact h2.name p u h
  · intro p u h
    rcases List.mem_append.1 h with h | h
    · exact h1.uri p u h
    · exact h2.uri p u h
  · intro p u v h h'
    rcases List.mem_append.1 h with h | h <;> rcases List.mem_append.1 h' with h' | h'
    · exact h1.fwd p u v h h'
    · exact ((h3 p v p u h' h).1 rfl).symm
    · exact (h3 p u p v h h').1 rfl
    · exact h2.fwd p u v h h'
  · intro p q u h h'
    rcases List.mem_append.1 h with h | h <;> rcases List.mem_append.1 h' with h' | h'
    · exact h1.bwd p q u h h'
    · exact ((h3 q u p u h' h).2 rfl).symm
    · exact (h3 p u q u h h').2 rfl
    · exact h2.bwd p q u h h'

/-- Bindings from a table. -/
def From (P : Pairs) (bs : List (Bytes × Bytes)) : Prop := ∀ x ∈ bs, x ∈ P

theorem lookup_mem {bs : List (Bytes × Bytes)} {q v : Bytes} (h : bs.lookup q = some v) : (q, v) ∈ bs := by
  induction bs with
  | nil => simp at h
  | cons x bs ih =>
    obtain ⟨a, b⟩ := x
    rw [List.lookup_cons] at h
    by_cases hk : q = a
    · subst hk
      simp at h
      subst h
      simp
    · have : (q == a) = false := by simpa using hk
      rw [this] at h
      exact List.mem_cons_of_mem _ (ih h)

theorem preOf_mem {bs : List (Bytes × Bytes)} {u q : Bytes} (h : preOf bs u = some q) : (q, u) ∈ bs := by
  unfold preOf at h
  obtain ⟨x, h1, h2⟩ := Option.map_eq_some_iff.1 h
  have h3 := List.mem_of_find?_eq_some h1
  have h4 := List.find?_some h1
  obtain ⟨a, b⟩ := x
  simp at h2 h4
  subst h2; subst h4
  exact h3

theorem preOf_none {bs : List (Bytes × Bytes)} {u : Bytes} (h : preOf bs u = none) : ∀ q, (q, u) ∉ bs := by
  intro q hq
  unfold preOf at h
  rw [Option.map_eq_none_iff, List.find?_eq_none] at h
  exact h _ hq (by simp)

theorem useNs_from {P : Pairs} (hP : PairsOk P) {bs : List (Bytes × Bytes)} (hb : From P bs) {p u q : Bytes}
    (h : (p, u) ∈ P) (hq : q = p ∨ (q = [] ∧ (genPrefix u = p ∨ (p, u) ∈ bs))) :
    ∃ bs' new, useNs bs u q = some (bs', p, new) ∧ From P bs' ∧ (∀ x ∈ bs, x ∈ bs') ∧ (p, u) ∈ bs' := by
  obtain ⟨h1, h2, h3, h4⟩ := hP.uri p u h
  obtain ⟨h5, h6⟩ := hP.name p u h
  unfold useNs
  rw [if_neg h2, if_neg (by simp [h1, h3, h4])]
  cases hpre : preOf bs u with
  | some r =>
    have hr := hP.bwd r p u (hb _ (preOf_mem hpre)) h
    subst hr
    dsimp only
    rw [if_pos (by rcases hq with hq | hq; exact Or.inr hq; exact Or.inl hq.1)]
    exact ⟨bs, false, rfl, hb, fun _ h => h, preOf_mem hpre⟩
  | none =>
    dsimp only
    have hq' : (if q = [] then genPrefix u else q) = p := by
      rcases hq with hq | hq
      · rw [if_neg (by rw [hq]; exact isName_ne h5.1), hq]
      · rw [if_pos hq.1]
        exact hq.2.resolve_right (preOf_none hpre p)
    have hl : bs.lookup p = none := by
      cases hl : bs.lookup p with
      | none => rfl
      | some v =>
        have hm := lookup_mem hl
        have := hP.fwd p u v h (hb _ hm)
        subst this
        exact absurd hm (preOf_none hpre p)
    rw [hq', if_pos ⟨h5, h6, hl⟩]
    refine ⟨_, _, rfl, fun x hx => ?_, fun x hx => List.mem_cons_of_mem _ hx, by simp⟩
    rcases List.mem_cons.1 hx with rfl | hx
    · exact h
    · exact hb x hx

/-! ### Attributes -/

/-- An attribute whose name is kept, where `D` is declared. -/
def AttrGood (P D : Pairs) (a : Attr) : Prop :=
  QLocal a.name.loc ∧
  ((a.name.space = [] ∧ ((splitPrefixed a.name.loc).2 = xmlnsPrefix →
      (splitPrefixed a.name.loc).1 = [] ∧ clean a.value = a.value)) ∨
    (a.name.space = xmlnsURL ∧ (splitPrefixed a.name.loc).1 = [] ∧ (a.name.loc, a.value) ∈ P) ∨
    (a.name.space ≠ xmlnsURL ∧ ∃ p, (p, a.name.space) ∈ P ∧ ((splitPrefixed a.name.loc).1 = p ∨
      ((splitPrefixed a.name.loc).1 = [] ∧ (genPrefix a.name.space = p ∨ (p, a.name.space) ∈ D)))))

theorem qlocal_ne {s : Bytes} (h : QLocal s) : s ≠ [] := by
  rcases h with h | ⟨p, l, _, _, rfl⟩
  · exact isName_ne h.1
  · simp

theorem xmlnsURL_ne : xmlnsURL ≠ [] := by decide

theorem AttrGood.mono {P D D' : Pairs} (h : ∀ x ∈ D, x ∈ D') {a : Attr} (ha : AttrGood P D a) : AttrGood P D' a := by
  refine ⟨ha.1, ?_⟩
  rcases ha.2 with h1 | h1 | ⟨h1, p, h2, h3⟩
  · exact Or.inl h1
  · exact Or.inr (Or.inl h1)
  · refine Or.inr (Or.inr ⟨h1, p, h2, ?_⟩)
    rcases h3 with h3 | ⟨h3, h4 | h4⟩
    · exact Or.inl h3
    · exact Or.inr ⟨h3, Or.inl h4⟩
    · exact Or.inr ⟨h3, Or.inr (h _ h4)⟩

/-- Attributes whose names are kept. -/
def AttrsGood (P D : Pairs) : List Attr → Prop
  | [] => True
  | a :: l => AttrGood P D a ∧ AttrsGood P (declOf a ++ D) l

theorem AttrsGood.mono {P : Pairs} : ∀ {l : List Attr} {D D' : Pairs}, (∀ x ∈ D, x ∈ D') → AttrsGood P D l →
    AttrsGood P D' l
  | [], _, _, _, _ => trivial
  | a :: l, D, D', h, hl => ⟨hl.1.mono h, AttrsGood.mono (fun x hx => by
      rcases List.mem_append.1 hx with hx | hx
      · exact List.mem_append_left _ hx
      · exact List.mem_append_right _ (h x hx)) hl.2⟩

theorem AttrsGood.append {P : Pairs} : ∀ {l m : List Attr} {D : Pairs}, AttrsGood P D l → AttrsGood P D m →
    AttrsGood P D (l ++ m)
  | [], _, _, _, h => h
  | a :: l, m, D, h, h' => ⟨h.1, AttrsGood.append h.2 (h'.mono fun x hx => List.mem_append_right _ hx)⟩

theorem AttrsGood.of {P D : Pairs} : ∀ {l : List Attr}, (∀ a ∈ l, AttrGood P D a) → AttrsGood P D l
  | [], _ => trivial
  | a :: l, h => ⟨h a (by simp), (AttrsGood.of fun x hx => h x (by simp [hx])).mono fun x hx => List.mem_append_right _ hx⟩

theorem attrSpec_good {P D : Pairs} (hP : PairsOk P) {bs : List (Bytes × Bytes)} (hb : From P bs) (hD : ∀ x ∈ D, x ∈ bs)
    {a : Attr} (ha : AttrGood P D a) : ∃ bs' ss, attrSpec bs a = some (bs', ss) ∧ From P bs' ∧
      (∀ s ∈ ss, s.space = xmlnsURL → ∃ u, (s.loc, u) ∈ P) ∧ (∀ x ∈ bs, x ∈ bs') ∧ ∀ x ∈ declOf a, x ∈ bs' := by
  obtain ⟨hq, ha⟩ := ha
  unfold attrSpec
  rw [if_neg (qlocal_ne hq)]
  dsimp only
  rcases ha with ⟨h1, h2⟩ | ⟨h1, h2, h3⟩ | ⟨h1, p, h2, h3⟩
  · have hx : a.name.space ≠ xmlnsURL := by rw [h1]; exact fun h => xmlnsURL_ne h.symm
    rw [if_neg hx, if_neg (by simp [h1]), if_neg]
    · refine ⟨_, _, rfl, hb, fun s hs h => ?_, fun _ h => h, by simp [declOf, hx]⟩
      simp only [List.mem_singleton] at hs
      subst hs
      exact absurd h.symm xmlnsURL_ne
    · rintro ⟨h3, h4⟩
      have := h2 h3
      rcases h4 with h4 | h4
      · exact h4 this.1
      · exact h4 this.2
  · obtain ⟨bs', new, hu, hf, hi, hm⟩ := useNs_from hP hb h3 (Or.inl rfl)
    rw [if_pos h1, if_neg (by
      rintro (h | h)
      · exact h h2
      · exact (hP.uri _ _ h3).2.1 h), hu]
    refine ⟨_, _, rfl, hf, fun s hs _ => ?_, hi, by simpa [declOf, h1] using hm⟩
    simp only [List.mem_singleton] at hs
    subst hs
    exact ⟨_, h3⟩
  · obtain ⟨bs', new, hu, hf, hi, _⟩ := useNs_from (q := (splitPrefixed a.name.loc).1) hP hb h2 (by
      rcases h3 with h3 | ⟨h3, h4 | h4⟩
      · exact Or.inl h3
      · exact Or.inr ⟨h3, Or.inl h4⟩
      · exact Or.inr ⟨h3, Or.inr (hD _ h4)⟩)
    rw [if_neg h1, if_pos (hP.uri _ _ h2).1, hu]
    refine ⟨_, _, rfl, hf, fun s hs hsp => ?_, hi, by simp [declOf, h1]⟩
    rcases List.mem_append.1 hs with hs | hs
    · split at hs
      · simp only [List.mem_singleton] at hs
        subst hs
        exact ⟨_, h2⟩
      · simp at hs
    · simp only [List.mem_singleton] at hs
      subst hs
      exact absurd hsp h1

theorem attrsSpec_good {P : Pairs} (hP : PairsOk P) : ∀ {attrs : List Attr} {D : Pairs} {bs : List (Bytes × Bytes)},
    From P bs → (∀ x ∈ D, x ∈ bs) → AttrsGood P D attrs → ∃ bs' ss, attrsSpec bs attrs = some (bs', ss) ∧ From P bs' ∧
      (∀ s ∈ ss, s.space = xmlnsURL → ∃ u, (s.loc, u) ∈ P) ∧ (∀ x ∈ bs, x ∈ bs') ∧ ∀ x ∈ attrs.flatMap declOf, x ∈ bs'
  | [], D, bs, hb, _, _ => ⟨bs, [], rfl, hb, by simp, fun _ h => h, by simp⟩
  | a :: l, D, bs, hb, hD, h => by
    obtain ⟨b1, s1, h1, h2, h3, h4, h5⟩ := attrSpec_good hP hb hD h.1
    obtain ⟨b2, s2, k1, k2, k3, k4, k5⟩ := attrsSpec_good hP (attrs := l) h2 (fun x hx => by
      rcases List.mem_append.1 hx with hx | hx
      · exact h5 x hx
      · exact h4 x (hD x hx)) h.2
    refine ⟨b2, s1 ++ s2, by simp [attrsSpec, h1, k1], k2, fun s hs => ?_, fun x hx => k4 x (h4 x hx), fun x hx => ?_⟩
    · rcases List.mem_append.1 hs with hs | hs
      · exact h3 s hs
      · exact k3 s hs
    · rw [List.flatMap_cons] at hx
      rcases List.mem_append.1 hx with hx | hx
      · exact k4 x (h5 x hx)
      · exact k5 x hx

/-! ### The attributes of a value -/

theorem marshalAttr_name (io : FloatIO) (s : Sch) (hs : attrShape s = true) (n : Name) (v : Val) (as : List Attr)
    (h : marshalAttr io s n v = .ok as) : ∀ a ∈ as, a.name = n := by
  have simple : ∀ k v as, marshalAttr io (.simple k) n v = .ok as → ∀ a ∈ as, a.name = n := by
    intro k v as h a ha
    cases v <;> simp only [marshalAttr] at h <;> first
      | (cases h; done)
      | (split at h
         · cases h
         · injection h with h
           subst h
           simp at ha
           rw [ha])
  have conc : ∀ k (l : List Val) as, concatM (l.map fun v => marshalAttr io (.simple k) n v) = .ok as →
      ∀ a ∈ as, a.name = n := by
    intro k l
    induction l with
    | nil =>
      intro as h a ha
      simp only [List.map_nil, concatM] at h
      injection h with h
      subst h
      simp at ha
    | cons v l ih =>
      intro as h a ha
      simp only [List.map_cons] at h
      cases hv : marshalAttr io (.simple k) n v with
      | error e => rw [hv] at h; simp [concatM] at h
      | ok b =>
        rw [hv] at h
        simp only [concatM] at h
        split at h
        · cases h
        · rename_i c hc
          injection h with h
          subst h
          rcases List.mem_append.1 ha with ha | ha
          · exact simple k v b hv a ha
          · exact ih c hc a ha
  unfold attrShape at hs
  split at hs
  · exact simple _ _ _ h
  · cases v with
    | ptr o =>
      cases o with
      | none =>
        simp only [marshalAttr] at h
        injection h with h
        subst h
        simp
      | some v =>
        simp only [marshalAttr] at h
        exact simple _ _ _ h
    | _ => simp [marshalAttr] at h
  · cases v with
    | ptr o =>
      cases o with
      | none =>
        simp only [marshalAttr] at h
        injection h with h
        subst h
        simp
      | some v =>
        cases v <;> simp only [marshalAttr] at h <;> first
          | (cases h; done)
          | exact conc _ _ _ h
    | _ => simp [marshalAttr] at h
  · cases hs

theorem concat_attrs (io : FloatIO) (n : Name) : ∀ (l : List Val) (as : List Attr), (∀ v ∈ l, Typed .attr v) →
    concatM (l.map fun v => marshalAttr io .attr n v) = .ok as → as = attrsIn l
  | [], as, _, h => by
    simp only [List.map_nil, concatM] at h
    injection h with h
    rw [← h]
    rfl
  | v :: l, as, ht, h => by
    have hv := ht v (by simp)
    cases v <;> simp [Typed] at hv
    rename_i b
    simp only [List.map_cons, marshalAttr, concatM] at h
    split at h
    · cases h
    · rename_i c hc
      injection h with h
      subst h
      rw [concat_attrs io n l c (fun v hv => ht v (by simp [hv])) hc]
      rfl

theorem mem_attrsIn {l : List Val} {a : Attr} (h : Val.attr a ∈ l) : a ∈ attrsIn l := by
  unfold attrsIn
  exact List.mem_filterMap.2 ⟨_, h, rfl⟩

theorem mem_of_attrsIn {l : List Val} {a : Attr} (h : a ∈ attrsIn l) : Val.attr a ∈ l := by
  unfold attrsIn at h
  obtain ⟨v, hv, h⟩ := List.mem_filterMap.1 h
  split at h
  · injection h with h
    subst h
    exact hv
  · cases h

/-- Where an attribute comes from. -/
def Source (F : List FInfo) (S : List Sch) (vs : List Val) (a : Attr) : Prop :=
  ∃ (i : Nat) (f : FInfo) (s : Sch) (v : Val), F[i]? = some f ∧ S[i]? = some s ∧ vs[i]? = some v ∧
    ((f.mode = .attr ∧ a.name = ⟨f.xmlns, joinPrefixed f.pre f.loc⟩ ∧ (s = .simple .str → v = .str a.value)) ∨
      (f.mode = .anyAttr ∧ ∃ l, v = .slice l ∧ .attr a ∈ l))

theorem marshalAttrs_source (io : FloatIO) : ∀ (F : List FInfo) (S : List Sch) (vs : List Val) (as : List Attr),
    (∀ (i : Nat) (fi : FInfo) (s : Sch), F[i]? = some fi → S[i]? = some s → fieldRt fi s = true) → Typeds S vs →
    marshalAttrs io F S vs = .ok as → ∀ a ∈ as, Source F S vs a
  | [], _, _, as, _, _, h, a, ha => by
    simp only [marshalAttrs] at h
    injection h with h
    subst h
    simp at ha
  | _ :: _, [], _, as, _, _, h, a, ha => by
    simp only [marshalAttrs] at h
    injection h with h
    subst h
    simp at ha
  | _ :: _, _ :: _, [], as, _, _, h, a, ha => by
    simp only [marshalAttrs] at h
    injection h with h
    subst h
    simp at ha
  | fi :: F, s :: S, v :: vs, as, hrt, ht, h, a, ha => by
    have hfi := hrt 0 fi s rfl rfl
    simp only [Typeds] at ht
    have ih : ∀ b, marshalAttrs io F S vs = .ok b → a ∈ b → Source (fi :: F) (s :: S) (v :: vs) a := by
      intro b hb hab
      obtain ⟨i, f, t, w, h1, h2, h3, h4⟩ := marshalAttrs_source io F S vs b
        (fun i fi s h1 h2 => hrt (i + 1) fi s h1 h2) ht.2 hb a hab
      exact ⟨i + 1, f, t, w, h1, h2, h3, h4⟩
    unfold marshalAttrs at h
    split at h
    · rename_i hm
      split at h
      · exact ih as h ha
      · split at h
        · cases h
        · rename_i c hc
          split at h
          · cases h
          · rename_i b hb
            injection h with h
            subst h
            rcases List.mem_append.1 ha with ha | ha
            · refine ⟨0, fi, s, v, rfl, rfl, rfl, ?_⟩
              have hty : Typed s v := by
                rcases ht.1 with h | h
                · cases v <;> simp [Val.isAbsent] at h
                  simp [marshalAttr] at hc
                · exact h
              rcases hm with hm | hm
              · refine Or.inl ⟨hm, marshalAttr_name io s (fieldRt_attr hfi hm).1 _ v c hc a ha, ?_⟩
                intro hstr
                subst hstr
                cases v <;> simp [Typed, KindOk] at hty
                simp only [marshalAttr, simpleAttr, marshalSimple] at hc
                injection hc with hc
                subst hc
                simp at ha
                rw [ha]
              · right
                have hs := fieldRt_any hfi hm
                subst hs
                cases v with
                | slice l =>
                  simp only [marshalAttr] at hc
                  simp only [Typed] at hty
                  rw [concat_attrs io _ l c (fun v hv => by have := hty v hv; simpa [Typed] using this) hc] at ha
                  exact ⟨hm, l, rfl, mem_of_attrsIn ha⟩
                | _ => simp [Typed] at hty
            · exact ih b hb ha
    · exact ih as h ha

/-- The attributes of a struct are good if those of each field are, and they contain the declarations in `any,attr` fields. -/
theorem marshalAttrs_good (io : FloatIO) {P D : Pairs} : ∀ (F : List FInfo) (S : List Sch) (vs : List Val)
    (as : List Attr), (∀ (i : Nat) (fi : FInfo) (s : Sch), F[i]? = some fi → S[i]? = some s → fieldRt fi s = true) →
    Typeds S vs → marshalAttrs io F S vs = .ok as →
    (∀ a ∈ as, ∀ (i : Nat) (f : FInfo) (s : Sch) (v : Val), F[i]? = some f → S[i]? = some s → vs[i]? = some v →
      f.mode = .attr → a.name = ⟨f.xmlns, joinPrefixed f.pre f.loc⟩ → (s = .simple .str → v = .str a.value) →
      AttrGood P D a) →
    (∀ (i : Nat) (f : FInfo) (l : List Val), F[i]? = some f → f.mode = .anyAttr → vs[i]? = some (.slice l) →
      AttrsGood P D (attrsIn l)) → AttrsGood P D as ∧ ∀ x ∈ anyDecls F vs, x ∈ as.flatMap declOf
  | [], _, vs, as, _, _, h, _, _ => by
    simp only [marshalAttrs] at h
    injection h with h
    subst h
    exact ⟨trivial, by cases vs <;> simp [anyDecls]⟩
  | _ :: _, [], vs, as, _, ht, h, _, _ => by
    simp only [marshalAttrs] at h
    injection h with h
    subst h
    cases vs with
    | nil => exact ⟨trivial, by simp [anyDecls]⟩
    | cons v vs => simp [Typeds] at ht
  | _ :: _, _ :: _, [], as, _, _, h, _, _ => by
    simp only [marshalAttrs] at h
    injection h with h
    subst h
    exact ⟨trivial, by simp [anyDecls]⟩
  | fi :: F, s :: S, v :: vs, as, hrt, ht, h, ha, hl => by
    have hfi := hrt 0 fi s rfl rfl
    simp only [Typeds] at ht
    have ih : ∀ b, marshalAttrs io F S vs = .ok b → (∀ a ∈ b, a ∈ as) → AttrsGood P D b ∧
        ∀ x ∈ anyDecls F vs, x ∈ b.flatMap declOf := by
      intro b hb hsub
      exact marshalAttrs_good io F S vs b (fun i fi s h1 h2 => hrt (i + 1) fi s h1 h2) ht.2 hb
        (fun a h1 i f s v h2 h3 h4 => ha a (hsub a h1) (i + 1) f s v h2 h3 h4)
        (fun i f l h1 h2 h3 => hl (i + 1) f l h1 h2 h3)
    have hdec : (∀ l, v = .slice l → fi.mode = .anyAttr → (attrsIn l).flatMap declOf = []) →
        anyDecls (fi :: F) (v :: vs) = anyDecls F vs := by
      intro hv
      cases v with
      | slice l =>
        simp only [anyDecls]
        split
        · rename_i hm
          rw [hv l rfl hm]
          rfl
        · rfl
      | _ => simp only [anyDecls]
    unfold marshalAttrs at h
    split at h
    · rename_i hm
      split at h
      · rename_i hom
        rw [hdec]
        · exact ih as h fun _ h => h
        · intro l hv hmo
          subst hv
          have : l = [] := by
            have hs := fieldRt_any hfi hmo
            subst hs
            rcases hom.2 with h | h
            · simpa [isEmpty] using h
            · simp [Val.isAbsent] at h
          subst this
          rfl
      · split at h
        · cases h
        · rename_i c hc
          split at h
          · cases h
          · rename_i b hb
            injection h with h
            subst h
            obtain ⟨i1, i2⟩ := ih b hb fun a ha => List.mem_append_right _ ha
            have hty : Typed s v := by
              rcases ht.1 with h | h
              · cases v <;> simp [Val.isAbsent] at h
                simp [marshalAttr] at hc
              · exact h
            by_cases hmode : fi.mode = .attr
            · rw [hdec (by intro l _ h; rw [hmode] at h; cases h)]
              refine ⟨AttrsGood.append (AttrsGood.of fun a hac => ?_) i1, fun x hx => ?_⟩
              · refine ha a (List.mem_append_left _ hac) 0 fi s v rfl rfl rfl hmode
                  (marshalAttr_name io s (fieldRt_attr hfi hmode).1 _ v c hc a hac) ?_
                intro hstr
                subst hstr
                cases v <;> simp [Typed, KindOk] at hty
                simp only [marshalAttr, simpleAttr, marshalSimple] at hc
                injection hc with hc
                subst hc
                simp at hac
                rw [hac]
              · rw [List.flatMap_append]
                exact List.mem_append_right _ (i2 x hx)
            · have hmode' : fi.mode = .anyAttr := hm.resolve_left hmode
              have hs := fieldRt_any hfi hmode'
              subst hs
              cases v with
              | slice l =>
                simp only [marshalAttr] at hc
                simp only [Typed] at hty
                have hcl := concat_attrs io _ l c (fun v hv => by have := hty v hv; simpa [Typed] using this) hc
                subst hcl
                refine ⟨AttrsGood.append (hl 0 fi l rfl hmode' rfl) i1, fun x hx => ?_⟩
                simp only [anyDecls, hmode', if_true] at hx
                rw [List.flatMap_append]
                rcases List.mem_append.1 hx with hx | hx
                · exact List.mem_append_left _ hx
                · exact List.mem_append_right _ (i2 x hx)
              | _ => simp [Typed] at hty
    · rename_i hm
      rw [hdec (by intro l _ h; exact absurd (Or.inr h) hm)]
      exact ih as h fun _ h => h

/-! ### Elements -/

/-- What is in scope is from the table `P`, and what is declared, `D`, is in scope; the namespace given to enclosing elements, if any, is that of the parent. -/
structure EnvOk (P D : Pairs) (sc : Bool) (ns : Bytes) (env : Env) : Prop where
  bs : From P env.bs
  decls : ∀ x ∈ D, x ∈ env.bs
  plain : sc = false → env.given = none
  given : env.given = none ∨ (env.given = some ns ∧ ns ≠ [])

/-- Trees that keep their names. -/
def Kept (L : List Bytes) (env : Env) (items : List Item) : Prop :=
  ItemsOk items ∧ ∃ xs, resolves env items = some xs ∧ NodeDeclsL L xs

theorem Kept.nil (L : List Bytes) (env : Env) : Kept L env [] := ⟨by simp [ItemsOk], [], rfl, by simp [NodeDeclsL]⟩

theorem itemsOk_append : ∀ {a b : List Item}, ItemsOk a → ItemsOk b → ItemsOk (a ++ b)
  | [], _, _, h => h
  | i :: a, b, h1, h2 => by
    simp only [List.cons_append, ItemsOk] at h1 ⊢
    exact ⟨h1.1, itemsOk_append h1.2 h2⟩

theorem nodeDeclsL_add {L : List Bytes} : ∀ {a b : List Node}, NodeDeclsL L a → NodeDeclsL L b → NodeDeclsL L (a ++ b)
  | [], _, _, h => h
  | x :: a, b, h1, h2 => by
    simp only [List.cons_append, NodeDeclsL] at h1 ⊢
    exact ⟨h1.1, nodeDeclsL_add h1.2 h2⟩

theorem resolves_add {env : Env} : ∀ {a b : List Item} {xs ys : List Node}, resolves env a = some xs →
    resolves env b = some ys → resolves env (a ++ b) = some (xs ++ ys)
  | [], b, xs, ys, h1, h2 => by
    simp only [resolves] at h1
    injection h1 with h1; subst h1
    exact h2
  | i :: a, b, xs, ys, h1, h2 => by
    simp only [List.cons_append, resolves] at h1 ⊢
    cases hi : resolve env i with
    | none => rw [hi] at h1; cases h1
    | some x =>
      rw [hi] at h1
      dsimp only at h1 ⊢
      cases hl : resolves env a with
      | none => rw [hl] at h1; cases h1
      | some zs =>
        rw [hl] at h1
        injection h1 with h1; subst h1
        rw [resolves_add hl h2]
        rfl

theorem Kept.append {L : List Bytes} {env : Env} {a b : List Item} (ha : Kept L env a) (hb : Kept L env b) :
    Kept L env (a ++ b) := by
  obtain ⟨h1, xs, h2, h3⟩ := ha
  obtain ⟨k1, ys, k2, k3⟩ := hb
  exact ⟨itemsOk_append h1 k1, _, resolves_add h2 k2, nodeDeclsL_add h3 k3⟩

/-- The content of an element keeps its names: elements, or content written as it is. -/
def KeptIn (L : List Bytes) (env : Env) (kids : List Item) : Prop := Kept L env kids ∨ ∃ b, kids = [.raw b] ∧ Chunk b

theorem keptIn_resolve {L : List Bytes} {env : Env} {kids : List Item} (h : KeptIn L env kids) :
    ((∃ b, kids = [.raw b] ∧ Chunk b) ∨ ItemsOk kids) ∧ ∃ ks, NodeDeclsL L ks ∧
      ((rawKid kids = none ∧ resolves env kids = some ks) ∨ ∃ b ts os, rawKid kids = some b ∧
        specRun env.opens (chunkToks b) = some (ts, os) ∧ ks = [.raw b ts]) := by
  rcases h with ⟨h1, ks, h2, h3⟩ | ⟨b, rfl, hb⟩
  · refine ⟨Or.inr h1, ks, h3, Or.inl ⟨?_, h2⟩⟩
    cases hr : rawKid kids with
    | none => rfl
    | some b =>
      have := rawKid_some hr
      subst this
      simp [ItemsOk, ItemOk] at h1
  · obtain ⟨ts, ht⟩ := (chunk_whole hb).spec env.opens
    exact ⟨Or.inl ⟨b, rfl, hb⟩, [.raw b ts], by simp [NodeDeclsL, NodeDecls], Or.inr ⟨b, ts, _, rfl, ht, rfl⟩⟩

theorem kept_elem {P D : Pairs} {L : List Bytes} (hP : PairsOk P) (hL : ∀ p u, (p, u) ∈ P → p ∉ L) {env : Env} {n : Name}
    {attrs : List Attr} {kids : List Item} {pl : Place} (hq : QLocal n.loc) (hpl : placeSpec env n attrs = some pl)
    (hb : From P pl.bs) (hd : ∀ s ∈ pl.decls, s.space = xmlnsURL → ∃ u, (s.loc, u) ∈ P)
    (hD : ∀ x ∈ D, x ∈ pl.bs) (ha : AttrsGood P D attrs) (hag : ∀ a ∈ attrs, ∃ D, AttrGood P D a)
    (hdef : defaultsOk pl.given attrs = true) (hk : ∀ env', From P env'.bs → (∀ x ∈ D, x ∈ env'.bs) →
      (∀ x ∈ attrs.flatMap declOf, x ∈ env'.bs) → env'.given = pl.given → KeptIn L env' kids) : Kept L env [.elem n attrs kids] := by
  obtain ⟨bs', ss, h1, h2, h3, h4, h5⟩ := attrsSpec_good hP hb hD ha
  obtain ⟨k1, ks, k3, k2⟩ := keptIn_resolve
    (hk ⟨bs', pl.given, dfltIn env n attrs pl.pre⟩ h2 (fun x hx => h4 x (hD x hx)) h5 rfl)
  refine ⟨?_, ?_⟩
  · simp only [ItemsOk, ItemOk]
    refine ⟨⟨hq, fun a haa => ?_, k1⟩, trivial⟩
    obtain ⟨_, g1, g2⟩ := hag a haa
    refine Or.inr ⟨g1, fun hx => ?_⟩
    rcases g2 with g2 | g2 | g2
    · rw [g2.1] at hx; exact absurd hx.symm xmlnsURL_ne
    · exact (hP.uri _ _ g2.2.2).1
    · exact absurd hx g2.1
  · have hr : resolve env (.elem n attrs kids) = some (.elem ⟨if n.space = [] then dfltIn env n attrs pl.pre else n.space,
        (splitPrefixed n.loc).2⟩ ((pl.decls ++ ss).map SAttr.res) ks) := by
      simp only [resolve, hpl, h1, hdef]
      rcases k2 with ⟨k2, k4⟩ | ⟨b, ts, os, k2, k4, k5⟩
      · rw [k2, k4]
        simp
      · rw [k2]
        dsimp only
        rw [k4, k5]
        simp
    refine ⟨_, by rw [resolves, hr]; rfl, ?_⟩
    simp only [NodeDeclsL, NodeDecls]
    refine ⟨⟨fun a haa hx => ?_, k3⟩, trivial⟩
    obtain ⟨s, hs, rfl⟩ := List.mem_map.1 haa
    have : ∃ u, (s.loc, u) ∈ P := by
      rcases List.mem_append.1 hs with hs | hs
      · exact hd s hs hx
      · exact h3 s hs hx
    obtain ⟨u, hu⟩ := this
    exact hL _ u hu

theorem place_empty (env : Env) (n : Name) (attrs : List Attr) (h1 : n.space = []) (h2 : (splitPrefixed n.loc).1 = [])
    (h3 : (splitPrefixed n.loc).2 ≠ xmlnsPrefix) : placeSpec env n attrs = some ⟨env.bs, [], [], env.given⟩ := by
  unfold placeSpec
  dsimp only
  rw [if_neg h3, if_pos h1, if_pos h2]

theorem place_pre {P : Pairs} (hP : PairsOk P) (env : Env) (hb : From P env.bs) (n : Name) (attrs : List Attr)
    (h1 : ((splitPrefixed n.loc).1, n.space) ∈ P) (h3 : (splitPrefixed n.loc).2 ≠ xmlnsPrefix)
    (h4 : n.space ∉ ownDefaults attrs) : ∃ pl, placeSpec env n attrs = some pl ∧ From P pl.bs ∧
      (∀ s ∈ pl.decls, s.space = xmlnsURL → ∃ u, (s.loc, u) ∈ P) ∧ pl.given = env.given ∧ ∀ x ∈ env.bs, x ∈ pl.bs := by
  obtain ⟨u1, u2, u3, u4⟩ := hP.uri _ _ h1
  obtain ⟨bs', new, hu, hf, hi, _⟩ := useNs_from hP hb h1 (Or.inl rfl)
  unfold placeSpec
  dsimp only
  rw [if_neg h3, if_neg u1, if_neg (by simp [u2, u3, u4]), if_neg h4, if_pos (isName_ne (hP.name _ _ h1).1.1), hu]
  refine ⟨_, rfl, hf, fun s hs _ => ?_, rfl, hi⟩
  dsimp only at hs
  split at hs
  · simp only [List.mem_singleton] at hs
    subst hs
    exact ⟨_, h1⟩
  · simp at hs

theorem place_name {P : Pairs} (hP : PairsOk P) (env : Env) (hb : From P env.bs) (n : Name) (attrs : List Attr)
    (hne : n.space ≠ []) (hs : SpaceOk n.space) (h2 : (splitPrefixed n.loc).1 = [])
    (h3 : (splitPrefixed n.loc).2 ≠ xmlnsPrefix) (hg : env.given = none ∨ env.given = some n.space)
    (ho : ∀ a ∈ attrs, a.name.space = xmlnsURL → (a.name.loc, a.value) ∈ P) :
    ∃ pl, placeSpec env n attrs = some pl ∧ From P pl.bs ∧
      (∀ s ∈ pl.decls, s.space = xmlnsURL → ∃ u, (s.loc, u) ∈ P) ∧ (pl.given = none ∨ pl.given = some n.space) ∧
      (n.space ∈ ownDefaults attrs → pl.given = some n.space) ∧ ∀ x ∈ env.bs, x ∈ pl.bs := by
  obtain ⟨u2, u3, u4⟩ := hs hne
  unfold placeSpec
  dsimp only
  rw [if_neg h3, if_neg hne, if_neg (by simp [u2, u3, u4])]
  by_cases hd : n.space ∈ ownDefaults attrs
  · rw [if_pos hd, if_pos ⟨h2, hg⟩]
    exact ⟨_, rfl, hb, by simp, Or.inr rfl, fun _ => rfl, fun _ h => h⟩
  rw [if_neg hd, if_neg (by simp [h2])]
  by_cases hgiv : env.given = some n.space
  · rw [if_pos hgiv]
    exact ⟨_, rfl, hb, by simp, Or.inr hgiv, fun h => absurd h hd, fun _ h => h⟩
  have hnone : env.given = none := by
    rcases hg with h | h
    · exact h
    · exact absurd h hgiv
  rw [if_neg hgiv]
  cases hop : ownPrefix attrs n.space with
  | some a =>
    have hm := List.mem_of_find?_eq_some hop
    have hp := List.find?_some hop
    simp only [Bool.and_eq_true, beq_iff_eq, bne_iff_ne] at hp
    obtain ⟨⟨p1, p2⟩, p3⟩ := hp
    have := ho a hm p1
    rw [p3] at this
    obtain ⟨bs', new, hu, hf, hi, _⟩ := useNs_from hP hb this (Or.inl rfl)
    dsimp only
    rw [hu]
    refine ⟨_, rfl, hf, ?_, Or.inl hnone, fun h => absurd h hd, hi⟩
    simp
  | none =>
    dsimp only
    cases preOf env.bs n.space with
    | some p => exact ⟨_, rfl, hb, by simp, Or.inl hnone, fun h => absurd h hd, fun _ h => h⟩
    | none =>
      dsimp only
      rw [if_pos hnone]
      refine ⟨_, rfl, hb, ?_, Or.inr rfl, fun h => absurd h hd, fun _ h => h⟩
      intro s hs h
      simp only [List.mem_singleton] at hs
      subst hs
      exact absurd h.symm xmlnsURL_ne

theorem canons_get {io : FloatIO} : ∀ {F : List FInfo} {S : List Sch} {vs : List Val},
    Canons io F S vs → ∀ {i : Nat} {f : FInfo} {s : Sch} {v : Val}, F[i]? = some f → S[i]? = some s →
      vs[i]? = some v → f.mode ≠ .innerxml → Canon io (some f) s v
  | [], _, _, _, i, _, _, _, h, _, _ => by simp at h
  | _ :: _, [], _, _, i, _, _, _, _, h, _ => by simp at h
  | _ :: _, _ :: _, [], _, i, _, _, _, _, _, h => by simp at h
  | f :: F, s :: S, v :: vs, hc, 0, _, _, _, h1, h2, h3 => by
    simp only [Canons] at hc
    simp only [List.getElem?_cons_zero, Option.some.injEq] at h1 h2 h3
    subst h1; subst h2; subst h3
    exact hc.2.1.1
  | f :: F, s :: S, v :: vs, hc, i + 1, _, _, _, h1, h2, h3 => by
    simp only [Canons] at hc
    exact canons_get hc.2.2 h1 h2 h3

theorem canons_whole {io : FloatIO} : ∀ {F : List FInfo} {S : List Sch} {vs : List Val},
    Canons io F S vs → ∀ v ∈ vs, v.isAbsent = false
  | [], [], [], _, v, hv => by simp at hv
  | [], [], _ :: _, h, _, _ => by simp [Canons] at h
  | [], _ :: _, _, h, _, _ => by simp [Canons] at h
  | _ :: _, [], _, h, _, _ => by simp [Canons] at h
  | _ :: _, _ :: _, [], _, v, hv => by simp at hv
  | f :: F, s :: S, w :: vs, hc, v, hv => by
    simp only [Canons] at hc
    rcases List.mem_cons.1 hv with rfl | hv
    · exact hc.1
    · exact canons_whole hc.2.2 v hv

theorem tag_qlocal {f : FInfo} (h : tagOk f = true) : QLocal (joinPrefixed f.pre f.loc) := by
  simp only [tagOk, Bool.and_eq_true, Bool.or_eq_true, beq_iff_eq, decide_eq_true_eq] at h
  unfold joinPrefixed
  split
  · exact Or.inl h.1.1
  · rename_i hp
    rcases h.1.2 with h2 | h2
    · exact absurd h2 hp
    · exact Or.inr ⟨_, _, h2, h.1.1, rfl⟩

/-- An attribute of a field of type `any,attr` keeps its name. -/
theorem any_good {P X D : Pairs} (hX : ∀ x ∈ X, x ∈ P) {n : Name} {a : Attr} (hn : NCName a.name.loc)
    (hc : clean a.value = a.value) (h : AnyNs X D n a) : AttrGood P D a := by
  refine ⟨Or.inl hn, ?_⟩
  rw [splitPrefixed_nc hn]
  rcases h with h | h | ⟨h, p, hp, h2⟩
  · exact Or.inl ⟨h.1, fun _ => ⟨rfl, hc⟩⟩
  · exact Or.inr (Or.inl ⟨h.1, rfl, hX _ h.2⟩)
  · exact Or.inr (Or.inr ⟨h, p, hX _ hp, Or.inr ⟨rfl, h2.imp Eq.symm id⟩⟩)

/-- The attributes of a field of type `any,attr` keep their names. -/
theorem anys_good {P X : Pairs} (hX : ∀ x ∈ X, x ∈ P) {n : Name} : ∀ {l : List Attr} {D : Pairs},
    (∀ a ∈ l, NCName a.name.loc ∧ clean a.value = a.value) → AnyNss X D n l → AttrsGood P D l
  | [], _, _, _ => trivial
  | a :: l, D, hc, h => ⟨any_good hX (hc a (by simp)).1 (hc a (by simp)).2 h.1,
      anys_good hX (fun a ha => hc a (by simp [ha])) h.2⟩

theorem anyNss_mem {X : Pairs} {n : Name} : ∀ {l : List Attr} {D : Pairs}, AnyNss X D n l → ∀ a ∈ l, ∃ D, AnyNs X D n a
  | [], _, _, a, h => by simp at h
  | b :: l, D, h, a, ha => by
    rcases List.mem_cons.1 ha with rfl | ha
    · exact ⟨D, h.1⟩
    · exact anyNss_mem h.2 a ha

theorem canon_any {io : FloatIO} {fi : Option FInfo} {l : List Val} {a : Attr}
    (h : Canon io fi (.slice .attr) (.slice l)) (ha : .attr a ∈ l) :
    NCName a.name.loc ∧ clean a.value = a.value := by
  simp only [Canon] at h
  exact (h _ ha).2

theorem ownDefaults_mem {attrs : List Attr} {u : Bytes} (h : u ∈ ownDefaults attrs) :
    ∃ a ∈ attrs, a.name = ⟨[], xmlnsPrefix⟩ ∧ a.value = u := by
  unfold ownDefaults at h
  obtain ⟨a, h1, h2⟩ := List.mem_filterMap.1 h
  split at h2
  · rename_i hn
    injection h2 with h2
    exact ⟨a, h1, hn, h2⟩
  · cases h2

theorem defaultsOk_none (attrs : List Attr) : defaultsOk none attrs = true := by
  unfold defaultsOk
  simp

end Verif.Bind
