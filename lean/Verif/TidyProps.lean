import Verif.Tidy

/-!
C30 for any text and any lists: what is read after writing is the value without the characters that XML forbids and without
nil in lists, so that the conditions on text and lists in `Fine` are necessary.
-/
namespace Verif.Bind

open Verif Verif.Xml Verif.FloatText

mutual
/-- `Fine` without the conditions on text and on nil in lists: they stay for declarations of namespaces and for `innerxml`. -/
def Rough (fi : Option FInfo) : Sch → Val → Prop
  | .simple k, v => k = .str ∨ LeafFine k v
  | .ptr _, .ptr none => True
  | .ptr s, .ptr (some v) => Rough fi s v
  | .slice s, .slice l => ∀ v ∈ l, Rough fi s v
  | .attr, .attr a => NCName a.name.loc ∧ (IsDecl a → clean a.value = a.value)
  | .struct tn xn infos subs, .struct xv vs =>
    NameOk fi xn (startName xn xv fi tn) ∧ AnyOk infos vs ∧ Roughs infos subs vs
  | _, _ => False
/-- The same for all fields. -/
def Roughs : List FInfo → List Sch → List Val → Prop
  | fi :: fis, s :: ss, v :: vs => v.isAbsent = false ∧
    ((keeps fi = false → Rough (some fi) s v) ∧ (keeps fi = true → fi.mode ≠ .innerxml → Fine (some fi) s v) ∧
      (fi.mode = .innerxml → InnerVal v)) ∧ Roughs fis ss vs
  | [], [], [] => True
  | _, _, _ => False
end

theorem isDecl_iff (a : Attr) : IsDecl a ↔ declName a.name = true := by
  obtain ⟨⟨sp, l⟩, x⟩ := a
  unfold IsDecl declName
  simp

theorem attrsIn_tidy (l : List Val) (ht : ∀ v ∈ l, Typed .attr v) :
    attrsIn ((l.map (tidy .attr)).filter fun v => !v.isNil) = (attrsIn l).map tidyAttr := by
  induction l with
  | nil => rfl
  | cons v l ih =>
    have h := ht v (by simp)
    cases v with
    | attr a =>
      have ih := ih fun v hv => ht v (by simp [hv])
      rw [List.map_cons, List.filter_cons_of_pos (by simp [tidy, Val.isNil])]
      simp only [attrsIn, tidy, List.filterMap_cons, List.map_cons] at ih ⊢
      rw [ih]
    | _ => simp [Typed] at h

/-- A list in a value is a list of attributes, or it has none. -/
theorem attrsIn_typed {s : Sch} {l : List Val} (ht : Typed s (.slice l)) : s = .slice .attr ∨ attrsIn l = [] := by
  cases s with
  | slice s =>
    simp only [Typed] at ht
    by_cases hs : s = .attr
    · exact Or.inl (by rw [hs])
    · refine Or.inr ?_
      unfold attrsIn
      rw [List.filterMap_eq_nil_iff]
      intro v hv
      have := ht v hv
      cases v with
      | attr a =>
        cases s with
        | attr => exact absurd rfl hs
        | simple k => cases k <;> simp [Typed, KindOk] at this
        | _ => simp [Typed] at this
      | _ => rfl
  | simple k => cases k <;> simp [Typed, KindOk] at ht
  | _ => simp [Typed] at ht

/-- The attributes of a tidied list. -/
theorem attrsIn_tidied {s : Sch} {l m : List Val} (ht : Typed s (.slice l)) (h : tidy s (.slice l) = .slice m) :
    attrsIn m = (attrsIn l).map tidyAttr := by
  by_cases hs : s = .slice .attr
  · subst hs
    simp only [tidy, Val.slice.injEq] at h
    subst h
    simp only [Typed] at ht
    exact attrsIn_tidy l ht
  · have ht' := tidy_typed s _ ht
    rw [h] at ht'
    rw [(attrsIn_typed ht).resolve_left hs, (attrsIn_typed ht').resolve_left hs, List.map_nil]

theorem tidy_slice {s : Sch} {v : Val} {m : List Val} (ht : Typed s v) (h : tidy s v = .slice m) : ∃ l, v = .slice l := by
  cases v with
  | slice l => exact ⟨l, rfl⟩
  | ptr o =>
    exfalso
    cases s with
    | simple k => cases k <;> simp [Typed, KindOk] at ht
    | ptr s =>
      cases o with
      | none => simp [tidy] at h
      | some v => simp only [tidy] at h; split at h <;> simp at h
    | _ => simp [Typed] at ht
  | _ =>
    exfalso
    cases s with
    | simple k => cases k <;> simp [Typed, KindOk, tidy] at ht h
    | _ => simp [Typed, tidy] at ht h

theorem keeps_any {f : FInfo} (h : f.mode = .anyAttr) : keeps f = false := by
  unfold keeps; rw [h]; rfl

/-- A list in an `any,attr` field of a tidied struct. -/
theorem tidies_list : ∀ (infos : List FInfo) (subs : List Sch) (vs : List Val) (i : Nat) (f : FInfo) (m : List Val),
    Typeds subs vs → infos.length = subs.length → infos[i]? = some f → f.mode = .anyAttr →
    (tidies infos subs vs)[i]? = some (.slice m) → ∃ l, vs[i]? = some (.slice l) ∧ attrsIn m = (attrsIn l).map tidyAttr
  | [], subs, vs, i, f, m, _, _, h, _, _ => by simp at h
  | fi :: fis, [], vs, i, f, m, _, hl, _, _, _ => by simp at hl
  | fi :: fis, s :: ss, [], i, f, m, ht, _, _, _, _ => by simp [Typeds] at ht
  | fi :: fis, s :: ss, v :: vs, 0, f, m, ht, _, h, hm, hv => by
    simp only [List.getElem?_cons_zero, Option.some.injEq] at h
    subst h
    simp only [Typeds] at ht
    simp only [tidies, keeps_any hm, Bool.false_eq_true, if_false, List.getElem?_cons_zero, Option.some.injEq] at hv
    rcases ht.1 with ha | ht1
    · rw [← tidy_absent s v, hv] at ha; cases ha
    · obtain ⟨l, rfl⟩ := tidy_slice ht1 hv
      exact ⟨l, rfl, attrsIn_tidied ht1 hv⟩
  | fi :: fis, s :: ss, v :: vs, i + 1, f, m, ht, hl, h, hm, hv => by
    simp only [Typeds] at ht
    simp only [tidies, List.getElem?_cons_succ] at hv h ⊢
    exact tidies_list fis ss vs i f m ht.2 (by simpa using hl) h hm hv

theorem tidyAttr_name (a : Attr) : (tidyAttr a).name = a.name := by unfold tidyAttr; split <;> rfl

theorem tidyAttr_decl (a : Attr) (h : declName a.name = true) : tidyAttr a = a := by unfold tidyAttr; rw [if_pos h]

theorem declOf_tidy (a : Attr) : declOf (tidyAttr a) = declOf a := by
  by_cases h : declName a.name = true
  · rw [tidyAttr_decl a h]
  · have : a.name.space ≠ xmlnsURL := fun e => h (by unfold declName; rw [e]; simp)
    unfold declOf
    rw [tidyAttr_name, if_neg this, if_neg this]

theorem anyNs_tidy {X D : Pairs} {n : Name} {a : Attr} (h : AnyNs X D n a) : AnyNs X D n (tidyAttr a) := by
  by_cases hd : declName a.name = true
  · rw [tidyAttr_decl a hd]; exact h
  · unfold AnyNs at h ⊢
    rw [tidyAttr_name]
    rcases h with ⟨h1, _⟩ | ⟨h1, _⟩ | h1
    · exact Or.inl ⟨h1, fun h2 => absurd (by unfold declName; rw [h1, h2]; simp) hd⟩
    · exact absurd (by unfold declName; rw [h1]; simp) hd
    · exact Or.inr (Or.inr h1)

theorem anyNss_tidy {X : Pairs} {n : Name} : ∀ (l : List Attr) (D : Pairs), AnyNss X D n l → AnyNss X D n (l.map tidyAttr)
  | [], _, _ => trivial
  | a :: l, D, h => by
    simp only [AnyNss, List.map_cons] at h ⊢
    rw [declOf_tidy]
    exact ⟨anyNs_tidy h.1, anyNss_tidy l _ h.2⟩

/-- What is declared in the `any,attr` field `v`. -/
theorem anyDecls_cons (f : FInfo) (fs : List FInfo) (v : Val) (vs : List Val) : anyDecls (f :: fs) (v :: vs) =
    (match v with
      | .slice l => if f.mode = .anyAttr then (attrsIn l).flatMap declOf else []
      | _ => []) ++ anyDecls fs vs := by
  cases v <;> simp [anyDecls]

theorem anyDecls_tidies : ∀ (infos : List FInfo) (subs : List Sch) (vs : List Val), Typeds subs vs →
    anyDecls infos (tidies infos subs vs) = anyDecls infos vs
  | [], subs, vs, _ => by simp [tidies]
  | fi :: fis, [], vs, _ => by simp [tidies]
  | fi :: fis, s :: ss, [], _ => by simp [tidies]
  | fi :: fis, s :: ss, v :: vs, ht => by
    simp only [Typeds] at ht
    simp only [tidies]
    rw [anyDecls_cons, anyDecls_cons, anyDecls_tidies fis ss vs ht.2]
    congr 1
    by_cases hm : fi.mode = .anyAttr
    · rw [keeps_any hm]
      simp only [Bool.false_eq_true, if_false, hm, if_true]
      rcases ht.1 with ha | ht1
      · have hv : v = .absent := by cases v <;> first | rfl | (simp [Val.isAbsent] at ha)
        subst hv
        have : tidy s .absent = .absent := by cases s <;> first | rfl | (rename_i k; cases k <;> rfl)
        rw [this]
      · by_cases hv : ∃ l, v = .slice l
        · obtain ⟨l, rfl⟩ := hv
          obtain ⟨m, hm'⟩ : ∃ m, tidy s (.slice l) = .slice m := by
            cases s with
            | slice s => exact ⟨_, by rw [tidy]⟩
            | simple k => cases k <;> simp [Typed, KindOk] at ht1
            | _ => simp [Typed] at ht1
          rw [hm']
          dsimp only
          rw [attrsIn_tidied ht1 hm', List.flatMap_map]
          simp only [declOf_tidy]
        · have h2 : ¬ ∃ m, tidy s v = .slice m := fun ⟨m, h⟩ => hv (tidy_slice ht1 h)
          have hno : ∀ w : Val, (¬ ∃ m, w = .slice m) → (match w with
              | .slice l => (attrsIn l).flatMap declOf
              | _ => []) = [] := by
            intro w hw
            cases w with
            | slice l => exact absurd ⟨l, rfl⟩ hw
            | _ => rfl
          rw [hno _ h2, hno _ hv]
    · have hno : ∀ w : Val, (match w with
          | .slice l => if fi.mode = .anyAttr then (attrsIn l).flatMap declOf else []
          | _ => []) = [] := by
        intro w
        cases w <;> simp [hm]
      rw [hno, hno]

mutual
theorem nsOk_tidy (X : Pairs) : ∀ (s : Sch) (v : Val) (D : Pairs) (ns : Bytes) (fi : Option FInfo), s.ok = true → Typed s v →
    NsOk X D ns fi s v → NsOk X D ns fi s (tidy s v)
  | .simple k, v, D, ns, fi, _, ht, hn => by simp [NsOk]
  | .ptr s, v, D, ns, fi, hk, ht, hn => by
    cases v with
    | ptr o =>
      cases o with
      | none => simp [tidy, NsOk]
      | some v =>
        simp only [Typed] at ht
        simp only [NsOk] at hn
        simp only [tidy]
        split
        · simp [NsOk]
        · simp only [NsOk]; exact nsOk_tidy X s v D ns fi (by simpa [Sch.ok] using hk) ht hn
    | _ => simp [Typed] at ht
  | .slice s, v, D, ns, fi, hk, ht, hn => by
    cases v with
    | slice l =>
      simp only [Typed] at ht
      simp only [NsOk, tidy] at hn ⊢
      intro v hv
      obtain ⟨u, hu, rfl⟩ := List.mem_map.1 (List.mem_of_mem_filter hv)
      exact nsOk_tidy X s u D ns fi (by simpa [Sch.ok] using hk) (ht u hu) (hn u hu)
    | _ => simp [Typed] at ht
  | .name, v, D, ns, fi, _, ht, hn => by simp [NsOk]
  | .attr, v, D, ns, fi, _, ht, hn => by simp [NsOk]
  | .bad e, v, D, ns, fi, _, ht, hn => by simp [NsOk]
  | .struct tn xn infos subs, v, D, ns, fi, hk, ht, hn => by
    cases v with
    | struct xv vs =>
      simp only [Typed] at ht
      simp only [Sch.ok, Bool.and_eq_true, beq_iff_eq] at hk
      simp only [NsOk, tidy] at hn ⊢
      refine ⟨hn.1, ?_, ?_⟩
      · intro i f m h1 h2 h3
        obtain ⟨l, hl, e⟩ := tidies_list infos subs vs i f m ht.2 hk.1 h1 h2 h3
        rw [e]
        exact anyNss_tidy _ _ (hn.2.1 i f l h1 h2 hl)
      · rw [anyDecls_tidies infos subs vs ht.2]
        exact nsOks_tidy X infos subs vs _ _ hk.2 ht.2 hn.2.2
    | _ => simp [Typed] at ht
theorem nsOks_tidy (X : Pairs) : ∀ (infos : List FInfo) (subs : List Sch) (vs : List Val) (D : Pairs) (ns : Bytes),
    oks subs = true → Typeds subs vs → NsOks X D ns infos subs vs → NsOks X D ns infos subs (tidies infos subs vs)
  | [], subs, vs, D, ns, _, _, h => by simpa [tidies] using h
  | fi :: fis, [], vs, D, ns, _, _, h => by simpa [tidies] using h
  | fi :: fis, s :: ss, [], D, ns, _, _, h => by simpa [tidies] using h
  | fi :: fis, s :: ss, v :: vs, D, ns, hk, ht, h => by
    simp only [oks, Bool.and_eq_true] at hk
    simp only [Typeds] at ht
    simp only [NsOks, tidies] at h ⊢
    refine ⟨?_, nsOks_tidy X fis ss vs D ns hk.2 ht.2 h.2⟩
    split
    · exact h.1
    · rcases ht.1 with ha | ht1
      · have hv : v = .absent := by cases v <;> first | rfl | (simp [Val.isAbsent] at ha)
        subst hv
        have : tidy s .absent = .absent := by cases s <;> first | rfl | (rename_i k; cases k <;> rfl)
        rw [this]; exact h.1
      · exact nsOk_tidy X s v D ns (some fi) hk.1 ht1 h.1
end

/-! ### Tidied values are fine -/

theorem mem_attrsIn_iff {l : List Val} {a : Attr} : a ∈ attrsIn l ↔ Val.attr a ∈ l := by
  unfold attrsIn
  rw [List.mem_filterMap]
  constructor
  · rintro ⟨v, hv, h⟩
    cases v with
    | attr b => simp only [Option.some.injEq] at h; subst h; exact hv
    | _ => simp at h
  · intro h; exact ⟨_, h, rfl⟩

mutual
theorem rough_tidy : ∀ (s : Sch) (v : Val) (fi : Option FInfo), s.ok = true → Typed s v → Rough fi s v → Fine fi s (tidy s v)
  | .simple k, v, fi, _, ht, hr => by
    simp only [Typed] at ht
    simp only [Rough, Fine] at hr ⊢
    rcases (kind_val ht).2 with ⟨rfl, b, rfl⟩ | ⟨hk, h⟩
    · exact clean_idem b
    · rw [h]; exact hr.resolve_left hk
  | .ptr s, v, fi, hk, ht, hr => by
    cases v with
    | ptr o =>
      cases o with
      | none => simp [tidy, Fine]
      | some v =>
        simp only [Typed] at ht
        simp only [Rough] at hr
        simp only [tidy]
        split
        · simp [Fine]
        · rename_i h
          simp only [Fine]
          exact ⟨by simpa using h, rough_tidy s v fi (by simpa [Sch.ok] using hk) ht hr⟩
    | _ => simp [Typed] at ht
  | .slice s, v, fi, hk, ht, hr => by
    cases v with
    | slice l =>
      simp only [Typed] at ht
      simp only [Rough] at hr
      simp only [tidy, Fine]
      intro v hv
      refine ⟨by simpa using (List.mem_filter.1 hv).2, ?_⟩
      obtain ⟨u, hu, rfl⟩ := List.mem_map.1 (List.mem_of_mem_filter hv)
      exact rough_tidy s u fi (by simpa [Sch.ok] using hk) (ht u hu) (hr u hu)
    | _ => simp [Typed] at ht
  | .attr, v, fi, _, ht, hr => by
    cases v with
    | attr a =>
      simp only [Rough, isDecl_iff] at hr
      simp only [tidy, Fine, tidyAttr_name]
      refine ⟨hr.1, ?_⟩
      unfold tidyAttr
      split
      · rename_i h; exact hr.2 h
      · exact clean_idem _
    | _ => simp [Typed] at ht
  | .name, v, fi, _, ht, hr => by cases v <;> simp [Rough] at hr
  | .bad e, v, fi, _, ht, hr => by simp [Typed] at ht
  | .struct tn xn infos subs, v, fi, hk, ht, hr => by
    cases v with
    | struct xv vs =>
      simp only [Typed] at ht
      simp only [Sch.ok, Bool.and_eq_true, beq_iff_eq] at hk
      simp only [Rough] at hr
      simp only [tidy, Fine]
      refine ⟨hr.1, ?_, roughs_tidy infos subs vs hk.2 ht.2 hr.2.2⟩
      intro i f m h1 h2 h3 a ha
      obtain ⟨l, hl, e⟩ := tidies_list infos subs vs i f m ht.2 hk.1 h1 h2 h3
      rw [← mem_attrsIn_iff, e] at ha
      obtain ⟨b, hb, rfl⟩ := List.mem_map.1 ha
      rw [tidyAttr_name]
      exact hr.2.1 i f l h1 h2 hl b (mem_attrsIn_iff.1 hb)
    | _ => simp [Typed] at ht
theorem roughs_tidy : ∀ (infos : List FInfo) (subs : List Sch) (vs : List Val), oks subs = true → Typeds subs vs →
    Roughs infos subs vs → Fines infos subs (tidies infos subs vs)
  | [], subs, vs, _, _, h => by
    cases subs <;> cases vs <;> simp [Roughs, tidies, Fines] at h ⊢
  | fi :: fis, [], vs, _, _, h => by simp [Roughs] at h
  | fi :: fis, s :: ss, [], _, _, h => by simp [Roughs] at h
  | fi :: fis, s :: ss, v :: vs, hk, ht, h => by
    simp only [oks, Bool.and_eq_true] at hk
    simp only [Typeds] at ht
    simp only [Roughs] at h
    have ht1 : Typed s v := ht.1.resolve_left (by rw [h.1]; simp)
    simp only [tidies, Fines]
    cases hkp : keeps fi with
    | true =>
      simp only [if_true]
      exact ⟨h.1, ⟨fun hm => h.2.1.2.1 hkp hm, h.2.1.2.2⟩, roughs_tidy fis ss vs hk.2 ht.2 h.2.2⟩
    | false =>
      simp only [Bool.false_eq_true, if_false, tidy_absent]
      refine ⟨h.1, ⟨fun _ => rough_tidy s v (some fi) hk.1 ht1 (h.2.1.1 hkp), fun hm => ?_⟩, roughs_tidy fis ss vs hk.2 ht.2 h.2.2⟩
      unfold keeps at hkp
      rw [hm] at hkp
      simp at hkp
end

/-! ### Nothing that is dropped comes back -/

theorem ins_filter {l m : List Attr} (h : Ins IsDecl l m) :
    l.filter (fun a => !declName a.name) = m.filter (fun a => !declName a.name) := by
  induction h with
  | nil => rfl
  | keep a _ ih => rw [List.filter_cons, List.filter_cons, ih]
  | ins he _ ih => rw [List.filter_cons_of_neg (by simpa using (isDecl_iff _).1 he), ih]

theorem map_tidyAttr_eq : ∀ (l : List Attr),
    (l.map tidyAttr).filter (fun a => !declName a.name) = l.filter (fun a => !declName a.name) → l.map tidyAttr = l
  | [], _ => rfl
  | a :: l, h => by
    rw [List.map_cons] at h ⊢
    by_cases hd : declName a.name = true
    · rw [tidyAttr_decl a hd] at h ⊢
      rw [List.filter_cons_of_neg (by simpa using hd), List.filter_cons_of_neg (by simpa using hd)] at h
      rw [map_tidyAttr_eq l h]
    · rw [List.filter_cons_of_pos (by rw [tidyAttr_name]; simpa using hd), List.filter_cons_of_pos (by simpa using hd)] at h
      injection h with h1 h2
      rw [h1, map_tidyAttr_eq l h2]

theorem attrs_eq : ∀ (l m : List Val), (∀ v ∈ l, Typed .attr v) → (∀ v ∈ m, Typed .attr v) → attrsIn l = attrsIn m → l = m
  | [], [], _, _, _ => rfl
  | [], v :: m, _, h, e => by
    have := h v (by simp)
    cases v <;> simp [Typed, attrsIn] at this e
  | v :: l, [], h, _, e => by
    have := h v (by simp)
    cases v <;> simp [Typed, attrsIn] at this e
  | v :: l, w :: m, h, h', e => by
    have h1 := h v (by simp)
    have h2 := h' w (by simp)
    cases v with
    | attr a =>
      cases w with
      | attr b =>
        have ih := attrs_eq l m (fun v hv => h v (by simp [hv])) (fun v hv => h' v (by simp [hv]))
        simp only [attrsIn, List.filterMap_cons] at e ih
        injection e with e1 e2
        rw [e1, ih e2]
      | _ => simp [Typed] at h2
    | _ => simp [Typed] at h1

theorem forall2_len {α β : Type} {R : α → β → Prop} : ∀ {l : List α} {m : List β}, List.Forall₂ R l m → l.length = m.length
  | _, _, .nil => rfl
  | _, _, .cons _ h => by simp [forall2_len h]

theorem filter_map_len (t : Val → Val) : ∀ (l : List Val),
    ((l.map t).filter fun v => !v.isNil).length = l.length → (l.map t).filter (fun v => !v.isNil) = l.map t := by
  intro l h
  exact List.filter_eq_self.2 (List.length_filter_eq_length_iff.1 (by rw [h, List.length_map]))

mutual
theorem back_tidy : ∀ (s : Sch) (v w : Val), Typed s v → Back s (tidy s v) w → Back s v w → tidy s v = v
  | .simple k, v, w, ht, h1, h2 => by
    simp only [Typed] at ht
    rcases (kind_val ht).2 with ⟨rfl, b, rfl⟩ | ⟨hk, h⟩
    · simp only [tidy, Back, SameLeaf] at h1 h2 ⊢
      rw [h1, h2]
    · exact h
  | .ptr s, v, w, ht, h1, h2 => by
    cases v with
    | ptr o =>
      cases o with
      | none => simp [tidy]
      | some v =>
        simp only [Typed] at ht
        cases w with
        | ptr o' =>
          cases o' with
          | none => simp [Back] at h2
          | some w =>
            simp only [tidy] at h1 ⊢
            split at h1
            · simp [Back] at h1
            · rename_i hn
              rw [if_neg hn]
              simp only [Back] at h1 h2
              rw [back_tidy s v w ht h1 h2]
        | _ => simp [Back] at h2
    | _ => simp [Typed] at ht
  | .slice s, v, w, ht, h1, h2 => by
    cases v with
    | slice l =>
      cases w with
      | slice m =>
        have ht0 := ht
        simp only [Typed] at ht
        simp only [tidy, Back] at h1 h2 ⊢
        cases hs : s.isAttr with
        | true =>
          have hsa : s = .attr := by cases s <;> simp [Sch.isAttr] at hs ⊢
          subst hsa
          rw [hs] at h1 h2
          simp only [if_true] at h1 h2
          rw [attrsIn_tidy l ht] at h1
          have e := map_tidyAttr_eq _ ((ins_filter h1).trans (ins_filter h2).symm)
          congr 1
          have ht' := tidy_typed _ _ ht0
          simp only [tidy, Typed] at ht'
          exact attrs_eq _ _ ht' ht (by rw [attrsIn_tidy l ht, e])
        | false =>
          rw [hs] at h1 h2
          simp only [Bool.false_eq_true, if_false] at h1 h2
          have hl : ((l.map (tidy s)).filter fun v => !v.isNil).length = l.length := by
            rw [forall2_len h1, forall2_len h2]
          rw [filter_map_len _ l hl] at h1 ⊢
          congr 1
          exact back_tidy_list s l m ht h1 h2
      | _ => simp [Back] at h2
    | _ => simp [Typed] at ht
  | .attr, v, w, ht, h1, h2 => by cases v <;> cases w <;> simp [Back] at h2
  | .name, v, w, ht, h1, h2 => by cases v <;> simp [tidy]
  | .bad e, v, w, ht, h1, h2 => by simp [Typed] at ht
  | .struct tn xn infos subs, v, w, ht, h1, h2 => by
    cases v with
    | struct xv vs =>
      cases w with
      | struct xw ws =>
        simp only [Typed] at ht
        simp only [tidy, Back] at h1 h2 ⊢
        rw [backs_tidy infos subs vs ws ht.2 h1.2 h2.2]
      | _ => simp [Back] at h2
    | _ => simp [Typed] at ht
theorem back_tidy_list : ∀ (s : Sch) (l m : List Val), (∀ v ∈ l, Typed s v) → List.Forall₂ (Back s) (l.map (tidy s)) m →
    List.Forall₂ (Back s) l m → l.map (tidy s) = l
  | s, [], _, _, _, _ => rfl
  | s, v :: l, m, ht, h1, h2 => by
    cases h2 with
    | cons h2 t2 =>
      rw [List.map_cons] at h1 ⊢
      cases h1 with
      | cons h1 t1 =>
        rw [back_tidy s v _ (ht v (by simp)) h1 h2, back_tidy_list s l _ (fun v hv => ht v (by simp [hv])) t1 t2]
theorem backs_tidy : ∀ (infos : List FInfo) (subs : List Sch) (vs ws : List Val), Typeds subs vs →
    Backs subs (tidies infos subs vs) ws → Backs subs vs ws → tidies infos subs vs = vs
  | [], subs, vs, ws, _, _, _ => by simp [tidies]
  | fi :: fis, [], vs, ws, _, _, _ => by simp [tidies]
  | fi :: fis, s :: ss, [], ws, _, _, _ => by simp [tidies]
  | fi :: fis, s :: ss, v :: vs, ws, ht, h1, h2 => by
    cases ws with
    | nil => simp [Backs] at h2
    | cons w ws =>
      simp only [Typeds] at ht
      simp only [tidies, Backs] at h1 h2 ⊢
      rw [backs_tidy fis ss vs ws ht.2 h1.2 h2.2]
      congr 1
      split
      · rfl
      · rename_i hk
        rw [if_neg hk] at h1
        rcases ht.1 with ha | ht1
        · have hv : v = .absent := by cases v <;> first | rfl | (simp [Val.isAbsent] at ha)
          subst hv
          cases s <;> first | rfl | (rename_i k; cases k <;> rfl)
        · exact back_tidy s v w ht1 h1.1 h2.1
end

/-! ### Fine values are tidy -/

theorem clean_tidyAttr {a : Attr} (h : clean a.value = a.value) : tidyAttr a = a := by
  unfold tidyAttr
  split
  · rfl
  · rw [h]

mutual
theorem fine_same : ∀ (s : Sch) (v : Val) (fi : Option FInfo), Typed s v → Fine fi s v → tidy s v = v ∧ Rough fi s v
  | .simple k, v, fi, ht, hf => by
    simp only [Typed] at ht
    simp only [Fine] at hf
    refine ⟨?_, by simp only [Rough]; exact Or.inr hf⟩
    rcases (kind_val ht).2 with ⟨rfl, b, rfl⟩ | ⟨hk, h⟩
    · simp only [tidy]; simp only [LeafFine] at hf; rw [hf]
    · exact h
  | .ptr s, v, fi, ht, hf => by
    cases v with
    | ptr o =>
      cases o with
      | none => simp [tidy, Rough]
      | some v =>
        simp only [Typed] at ht
        simp only [Fine] at hf
        obtain ⟨e, hr⟩ := fine_same s v fi ht hf.2
        simp only [tidy, Rough, e, hf.1]
        exact ⟨by simp, hr⟩
    | _ => simp [Typed] at ht
  | .slice s, v, fi, ht, hf => by
    cases v with
    | slice l =>
      simp only [Typed] at ht
      simp only [Fine] at hf
      refine ⟨?_, by simp only [Rough]; exact fun v hv => (fine_same s v fi (ht v hv) (hf v hv).2).2⟩
      have e : l.map (tidy s) = l := by
        conv => rhs; rw [← List.map_id l]
        exact List.map_congr_left fun v hv => (fine_same s v fi (ht v hv) (hf v hv).2).1
      simp only [tidy]
      rw [e, List.filter_eq_self.2 fun v hv => by simp [(hf v hv).1]]
    | _ => simp [Typed] at ht
  | .attr, v, fi, ht, hf => by
    cases v with
    | attr a =>
      simp only [Fine] at hf
      simp only [tidy, Rough]
      exact ⟨by rw [clean_tidyAttr hf.2], hf.1, fun _ => hf.2⟩
    | _ => simp [Typed] at ht
  | .name, v, fi, ht, hf => by cases v <;> simp [Fine] at hf
  | .bad e, v, fi, ht, hf => by simp [Typed] at ht
  | .struct tn xn infos subs, v, fi, ht, hf => by
    cases v with
    | struct xv vs =>
      simp only [Typed] at ht
      simp only [Fine] at hf
      obtain ⟨e, hr⟩ := fines_same infos subs vs ht.2 hf.2.2
      simp only [tidy, Rough, e]
      exact ⟨trivial, hf.1, hf.2.1, hr⟩
    | _ => simp [Typed] at ht
theorem fines_same : ∀ (infos : List FInfo) (subs : List Sch) (vs : List Val), Typeds subs vs → Fines infos subs vs →
    tidies infos subs vs = vs ∧ Roughs infos subs vs
  | [], subs, vs, _, h => by
    cases subs <;> cases vs <;> simp [Fines, tidies, Roughs] at h ⊢
  | fi :: fis, [], vs, _, h => by simp [Fines] at h
  | fi :: fis, s :: ss, [], _, h => by simp [Fines] at h
  | fi :: fis, s :: ss, v :: vs, ht, h => by
    simp only [Typeds] at ht
    simp only [Fines] at h
    have ht1 : Typed s v := ht.1.resolve_left (by rw [h.1]; simp)
    obtain ⟨e, hr⟩ := fines_same fis ss vs ht.2 h.2.2
    simp only [tidies, Roughs, e]
    have hki : keeps fi = false → fi.mode ≠ .innerxml := by
      intro hk hm
      unfold keeps at hk
      rw [hm] at hk
      simp at hk
    refine ⟨?_, h.1, ⟨fun hk => (fine_same s v (some fi) ht1 (h.2.1.1 (hki hk))).2, fun _ hm => h.2.1.1 hm, h.2.1.2⟩, hr⟩
    cases hk : keeps fi with
    | true => simp
    | false => simp [(fine_same s v (some fi) ht1 (h.2.1.1 (hki hk))).1]
end

/-! ### The property -/

/-- **C30** with any text and any lists: whatever the strings of a manifest contain and wherever its lists have nil, it is
written, the document is read, and what is read is the manifest without the characters that XML forbids, which are replaced by
U+FFFD, and without the members that are nil (`tidy`). -/
theorem C30_tidy_partial (io : FloatIO) (hio : GoFloats io) (indent : Bytes) (hind : IsWs indent) (hdr : Bool) (X : Pairs)
    (hX : extOk mpdPairs X mpdLocs = true) (v : Val) (ht : Typed tMPD.sch v)
    (hr : Rough none tMPD.sch v) (hn : NsOk X [] [] none tMPD.sch v) :
    ∃ doc w, writeDoc io tMPD.sch v indent hdr = .ok doc ∧ unmarshalDoc io tMPD.sch doc = .ok w ∧
      Returned indent tMPD.sch (tidy tMPD.sch v) w := by
  obtain ⟨doc, w, h1, h2, h3⟩ := C30_values_partial io hio indent hind hdr X hX (tidy tMPD.sch v) (tidy_typed _ _ ht)
    (rough_tidy _ _ _ mpd_ok ht hr) (nsOk_tidy X _ _ _ _ _ mpd_ok ht hn)
  rw [writeDoc_tidy io _ v indent hdr mpd_onePtr ht] at h1
  exact ⟨doc, w, h1, h2, h3⟩

/-- **C30**: the conditions on text and lists are necessary.  A manifest that is written without indentation is read as the
same manifest exactly if its strings have no forbidden characters and its lists no nil. -/
theorem C30_exact_partial (io : FloatIO) (hio : GoFloats io) (hdr : Bool) (X : Pairs) (hX : extOk mpdPairs X mpdLocs = true)
    (v : Val) (ht : Typed tMPD.sch v) (hr : Rough none tMPD.sch v) (hn : NsOk X [] [] none tMPD.sch v) :
    ∃ doc w, writeDoc io tMPD.sch v [] hdr = .ok doc ∧ unmarshalDoc io tMPD.sch doc = .ok w ∧
      (Back tMPD.sch v w ↔ Fine none tMPD.sch v) := by
  obtain ⟨doc, w, h1, h2, u, h3, _, h4⟩ := C30_tidy_partial io hio [] (by simp [IsWs]) hdr X hX v ht hr hn
  have hw := h4 (Or.inl rfl)
  subst hw
  refine ⟨doc, w, h1, h2, fun hb => ?_, fun hf => ?_⟩
  · have h := rough_tidy _ _ _ mpd_ok ht hr
    rw [back_tidy _ _ _ ht h3 hb] at h
    exact h
  · rw [(fine_same _ _ _ ht hf).1] at h3
    exact h3

/-- **C30**: what is lost.  Values that differ only in forbidden characters and in nil members of lists have the same document. -/
theorem C30_lost (io : FloatIO) (v w : Val) (hv : Typed tMPD.sch v) (hw : Typed tMPD.sch w)
    (h : tidy tMPD.sch v = tidy tMPD.sch w) (indent : Bytes) (hdr : Bool) :
    writeDoc io tMPD.sch v indent hdr = writeDoc io tMPD.sch w indent hdr := by
  rw [← writeDoc_tidy io _ v indent hdr mpd_onePtr hv, ← writeDoc_tidy io _ w indent hdr mpd_onePtr hw, h]

/-! ### An example -/

/-- `KindOk`. -/
def kindB : Kind → Val → Bool
  | .str, .str _ => true
  | .bool, .bool _ => true
  | .int b, .int i => decide (-(2 ^ (b - 1) : Int) ≤ i ∧ i < 2 ^ (b - 1))
  | .uint b, .uint n => decide (n < 2 ^ b)
  | .float b, .float x => decide (x < 2 ^ b)
  | .duration, .int i => decide (IsI64 i)
  | .floatInf, .float x => decide (x < 2 ^ 64)
  | _, _ => false

theorem kindB_sound (k : Kind) (v : Val) (h : kindB k v = true) : KindOk k v := by
  cases k <;> cases v <;> simp [kindB, KindOk] at h ⊢ <;> exact h

/-- `Uniform`. -/
def uniformB (infos : List FInfo) (vs : List Val) : Bool :=
  (infos.zip vs).all fun p => (p.1.grp != none || !p.2.isAbsent) &&
    (infos.zip vs).all fun q => p.1.grp != q.1.grp || p.2.isAbsent == q.2.isAbsent

theorem uniformB_sound (infos : List FInfo) (vs : List Val) (h : uniformB infos vs = true) : Uniform infos vs := by
  intro i j fi fj vi vj h1 h2 h3 h4
  have mem : ∀ (i : Nat) (f : FInfo) (v : Val), infos[i]? = some f → vs[i]? = some v → (f, v) ∈ infos.zip vs := by
    intro i f v e1 e2
    refine List.mem_of_getElem? (i := i) ?_
    rw [List.getElem?_zip_eq_some]
    exact ⟨e1, e2⟩
  have hp := List.all_eq_true.1 h _ (mem i fi vi h1 h3)
  rw [Bool.and_eq_true] at hp
  have hq := List.all_eq_true.1 hp.2 _ (mem j fj vj h2 h4)
  have hp1 := hp.1
  dsimp only at hp1 hq
  refine ⟨fun e => ?_, fun e => ?_⟩
  · rw [e] at hq
    simpa using hq
  · rw [e] at hp1
    simpa using hp1

mutual
/-- `Typed`. -/
def typedB : Sch → Val → Bool
  | .simple k, v => kindB k v
  | .ptr _, .ptr none => true
  | .ptr s, .ptr (some v) => typedB s v
  | .slice s, .slice l => l.all (typedB s)
  | .attr, .attr _ => true
  | .name, .name _ => true
  | .struct _ _ infos subs, .struct _ vs => uniformB infos vs && typedsB subs vs
  | _, _ => false
/-- `Typeds`. -/
def typedsB : List Sch → List Val → Bool
  | [], [] => true
  | s :: ss, v :: vs => (v.isAbsent || typedB s v) && typedsB ss vs
  | _, _ => false
end

mutual
theorem typedB_sound : ∀ (s : Sch) (v : Val), typedB s v = true → Typed s v
  | .simple k, v, h => by simp only [typedB, Typed] at h ⊢; exact kindB_sound k v h
  | .ptr s, v, h => by
    cases v with
    | ptr o =>
      cases o with
      | none => simp [Typed]
      | some v => simp only [typedB, Typed] at h ⊢; exact typedB_sound s v h
    | _ => simp [typedB] at h
  | .slice s, v, h => by
    cases v with
    | slice l => simp only [typedB, Typed, List.all_eq_true] at h ⊢; exact fun v hv => typedB_sound s v (h v hv)
    | _ => simp [typedB] at h
  | .attr, v, h => by cases v <;> simp [typedB, Typed] at h ⊢
  | .name, v, h => by cases v <;> simp [typedB, Typed] at h ⊢
  | .bad e, v, h => by simp [typedB] at h
  | .struct tn xn infos subs, v, h => by
    cases v with
    | struct xv vs =>
      simp only [typedB, Typed, Bool.and_eq_true] at h ⊢
      exact ⟨uniformB_sound _ _ h.1, typedsB_sound subs vs h.2⟩
    | _ => simp [typedB] at h
theorem typedsB_sound : ∀ (subs : List Sch) (vs : List Val), typedsB subs vs = true → Typeds subs vs
  | [], vs, h => by cases vs <;> simp [typedsB, Typeds] at h ⊢
  | s :: ss, vs, h => by
    cases vs with
    | nil => simp [typedsB] at h
    | cons v vs =>
      simp only [typedsB, Typeds, Bool.and_eq_true, Bool.or_eq_true] at h ⊢
      exact ⟨h.1.imp_right (typedB_sound s v), typedsB_sound ss vs h.2⟩
end

mutual
/-- `Rough`. -/
def roughB (fi : Option FInfo) : Sch → Val → Bool
  | .simple k, v => k == .str || fineB k v
  | .ptr _, .ptr none => true
  | .ptr s, .ptr (some v) => roughB fi s v
  | .slice s, .slice l => l.all (roughB fi s)
  | .attr, .attr a => decide (NCName a.name.loc) && (!declName a.name || clean a.value == a.value)
  | .struct tn xn infos subs, .struct xv vs =>
    nameB fi xn (startName xn xv fi tn) &&
      anyB (fun i l => l.all fun a => attrField infos a.name == some i) infos vs && roughsB infos subs vs
  | _, _ => false
/-- `Roughs`. -/
def roughsB : List FInfo → List Sch → List Val → Bool
  | fi :: fis, s :: ss, v :: vs => !v.isAbsent &&
    (if fi.mode = .innerxml then innerB v else if keeps fi then fineValB (some fi) s v else roughB (some fi) s v) && roughsB fis ss vs
  | [], [], [] => true
  | _, _, _ => false
end

mutual
theorem roughB_sound : ∀ (s : Sch) (v : Val) (fi : Option FInfo), roughB fi s v = true → Rough fi s v
  | .simple k, v, fi, h => by
    simp only [roughB, Rough, Bool.or_eq_true, beq_iff_eq] at h ⊢
    exact h.imp_right (fineB_sound k v)
  | .ptr s, v, fi, h => by
    cases v with
    | ptr o =>
      cases o with
      | none => simp [Rough]
      | some v => simp only [roughB, Rough] at h ⊢; exact roughB_sound s v fi h
    | _ => simp [roughB] at h
  | .slice s, v, fi, h => by
    cases v with
    | slice l => simp only [roughB, Rough, List.all_eq_true] at h ⊢; exact fun v hv => roughB_sound s v fi (h v hv)
    | _ => simp [roughB] at h
  | .attr, v, fi, h => by
    cases v with
    | attr a =>
      simp only [roughB, Rough, isDecl_iff, Bool.and_eq_true, decide_eq_true_eq, Bool.or_eq_true, Bool.not_eq_true', beq_iff_eq] at h ⊢
      exact ⟨h.1, fun hd => h.2.resolve_left (by rw [hd]; simp)⟩
    | _ => simp [roughB] at h
  | .name, v, fi, h => by simp [roughB] at h
  | .bad e, v, fi, h => by simp [roughB] at h
  | .struct tn xn infos subs, v, fi, h => by
    cases v with
    | struct xv vs =>
      simp only [roughB, Rough, Bool.and_eq_true] at h ⊢
      refine ⟨nameB_sound _ _ _ h.1.1, ?_, roughsB_sound infos subs vs h.2⟩
      intro i f l h1 h2 h3 a ha
      have := List.all_eq_true.1 (anyB_sound _ _ _ h.1.2 i f l h1 h2 h3) a (mem_attrsIn ha)
      simpa using this
    | _ => simp [roughB] at h
theorem roughsB_sound : ∀ (infos : List FInfo) (subs : List Sch) (vs : List Val), roughsB infos subs vs = true →
    Roughs infos subs vs
  | [], subs, vs, h => by cases subs <;> cases vs <;> simp [roughsB, Roughs] at h ⊢
  | fi :: fis, [], vs, h => by simp [roughsB] at h
  | fi :: fis, s :: ss, [], h => by simp [roughsB] at h
  | fi :: fis, s :: ss, v :: vs, h => by
    simp only [roughsB, Roughs, Bool.and_eq_true, Bool.not_eq_true'] at h ⊢
    refine ⟨h.1.1, ?_, roughsB_sound fis ss vs h.2⟩
    have h1 := h.1.2
    by_cases hm : fi.mode = .innerxml
    · rw [if_pos hm] at h1
      refine ⟨fun hk => ?_, fun _ h => absurd hm h, fun _ => innerB_sound v h1⟩
      unfold keeps at hk
      rw [hm] at hk
      simp at hk
    · rw [if_neg hm] at h1
      refine ⟨fun hk => ?_, fun hk _ => ?_, fun h => absurd h hm⟩
      · rw [hk] at h1; exact roughB_sound s v (some fi) (by simpa using h1)
      · rw [hk] at h1; exact fineValB_sound (some fi) s v (by simpa using h1)
end

/-- A manifest with a control character in its profiles and with nil among its periods. -/
def spoil : List FInfo → List Val → List Val
  | f :: fs, v :: vs =>
    (if f.loc = (b!"profiles") then .str [ch%'p', 1] else
      match v with
      | .slice l => if f.loc = (b!"Period") then .slice (.ptr none :: l) else v
      | _ => v) :: spoil fs vs
  | _, vs => vs

/-- `liveVal` spoiled. -/
@[irreducible] def roughVal : Val :=
  match tMPD.sch, liveVal with
  | .struct _ _ infos _, .struct xv vs => .struct xv (spoil infos vs)
  | _, _ => .absent

theorem roughVal_ok : typedB tMPD.sch roughVal = true ∧ roughB none tMPD.sch roughVal = true ∧
    nsB [] [] [] none tMPD.sch roughVal = true ∧ fineValB none tMPD.sch roughVal = false := by
  decide +kernel

example (io : FloatIO) (hio : GoFloats io) : ∃ doc w, writeDoc io tMPD.sch roughVal [ch%' '] true = .ok doc ∧
    unmarshalDoc io tMPD.sch doc = .ok w ∧ Returned [ch%' '] tMPD.sch (tidy tMPD.sch roughVal) w :=
  C30_tidy_partial io hio _ (by simp [IsWs]) true [] liveVal_ok.2.2.2 roughVal (typedB_sound _ _ roughVal_ok.1)
    (roughB_sound _ _ _ roughVal_ok.2.1) (nsB_sound _ _ _ _ _ _ roughVal_ok.2.2.1)

/-- Some list in a struct starts with nil. -/
def startsNil : Val → Bool
  | .struct _ vs => vs.any fun v =>
    match v with
    | .slice (.ptr none :: _) => true
    | _ => false
  | _ => false

/-- What is read is not the spoiled manifest. -/
example (io : FloatIO) (hio : GoFloats io) : ∃ doc w, writeDoc io tMPD.sch roughVal [] true = .ok doc ∧
    unmarshalDoc io tMPD.sch doc = .ok w ∧ ¬ Back tMPD.sch roughVal w := by
  have ht := typedB_sound _ _ roughVal_ok.1
  obtain ⟨doc, w, h1, h2, h3⟩ := C30_exact_partial io hio true [] liveVal_ok.2.2.2 roughVal ht
    (roughB_sound _ _ _ roughVal_ok.2.1) (nsB_sound _ _ _ _ _ _ roughVal_ok.2.2.1)
  refine ⟨doc, w, h1, h2, fun hb => ?_⟩
  have e := (fine_same _ _ _ ht (h3.1 hb)).1
  have h : startsNil (tidy tMPD.sch roughVal) ≠ startsNil roughVal := by decide +kernel
  exact h (by rw [e])

end Verif.Bind
