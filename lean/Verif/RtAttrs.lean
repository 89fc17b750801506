import Verif.RtSpec

/-!
Attributes written and read back.
-/
namespace Verif.Bind

open Verif.Xml

/-! ### Insertions -/

theorem Ins.refl (E : Attr → Prop) : ∀ l, Ins E l l
  | [] => .nil
  | a :: l => .keep a (Ins.refl E l)

theorem Ins.append {E : Attr → Prop} {a b c d : List Attr} (h : Ins E a b) (h' : Ins E c d) : Ins E (a ++ c) (b ++ d) := by
  induction h with
  | nil => exact h'
  | keep a _ ih => exact .keep a ih
  | ins he _ ih => exact .ins he ih

theorem Ins.mono {E E' : Attr → Prop} {a b : List Attr} (h : Ins E a b) (hE : ∀ e ∈ b, E e → E' e) : Ins E' a b := by
  induction h with
  | nil => exact .nil
  | keep a _ ih => exact .keep a (ih fun e he => hE e (by simp [he]))
  | ins he _ ih => exact .ins (hE _ (by simp) he) (ih fun e he => hE e (by simp [he]))

theorem Ins.all {E : Attr → Prop} {m : List Attr} (h : ∀ e ∈ m, E e) : Ins E [] m := by
  induction m with
  | nil => exact .nil
  | cons e m ih => exact .ins (h e (by simp)) (ih fun x hx => h x (by simp [hx]))

theorem Ins.filter {E : Attr → Prop} {a b : List Attr} (p : Attr → Bool) (h : Ins E a b) :
    Ins E (a.filter p) (b.filter p) := by
  induction h with
  | nil => exact .nil
  | keep a _ ih =>
    simp only [List.filter_cons]
    split
    · exact .keep a ih
    · exact ih
  | ins he _ ih =>
    simp only [List.filter_cons]
    split
    · exact .ins he ih
    · exact ih

theorem Ins.filter_out {E : Attr → Prop} {a b : List Attr} (p : Attr → Bool) (h : Ins E a b)
    (hE : ∀ e ∈ b, E e → p e = false) : b.filter p = a.filter p := by
  induction h with
  | nil => rfl
  | keep a _ ih =>
    simp only [List.filter_cons]
    rw [ih fun e he => hE e (by simp [he])]
  | ins he _ ih =>
    rw [List.filter_cons, hE _ (by simp) he]
    exact ih fun e he => hE e (by simp [he])

/-! ### Names -/

theorem splitPrefixed_plain {s : Bytes} (h : (splitPrefixed s).1 = []) : (splitPrefixed s).2 = s := by
  unfold splitPrefixed at h ⊢
  split
  · rfl
  · rename_i hd
    rw [hd] at h
    dsimp only at h ⊢
    split
    · rfl
    · rename_i hn
      rw [if_neg hn] at h
      exact absurd (Or.inl h) hn

theorem splitPrefixed_tag {fi : FInfo} (h : tagOk fi = true) :
    splitPrefixed (joinPrefixed fi.pre fi.loc) = (fi.pre, fi.loc) ∧ joinPrefixed fi.pre fi.loc ≠ [] ∧ fi.xmlns ≠ xmlnsURL := by
  simp only [tagOk, Bool.and_eq_true, Bool.or_eq_true, beq_iff_eq, decide_eq_true_eq, bne_iff_ne] at h
  obtain ⟨⟨h1, h2⟩, h3⟩ := h
  refine ⟨?_, ?_, h3⟩
  · unfold joinPrefixed
    split
    · rename_i hp; rw [splitPrefixed_nc h1, hp]
    · rename_i hp
      rcases h2 with h2 | h2
      · exact absurd h2 hp
      · exact splitPrefixed_join h2 h1
  · unfold joinPrefixed
    split
    · exact isName_ne h1.1
    · simp

/-- An attribute as it is read after it has been written. -/
def resA (a : Attr) : Attr := ⟨⟨a.name.space, (splitPrefixed a.name.loc).2⟩, clean a.value⟩

theorem useNs_pref {bs : List (Bytes × Bytes)} {u p : Bytes} {r} (h : useNs bs u p = some r) (hp : p ≠ [])
    (hu : u ≠ xmlURL) : r.2.1 = p := by
  unfold useNs at h
  rw [if_neg hu] at h
  split at h
  · cases h
  · split at h
    · split at h
      · rename_i q _ hq
        injection h with h; subst h
        rcases hq with hq | hq
        · exact absurd hq hp
        · exact hq.symm
      · cases h
    · dsimp only at h
      split at h
      · injection h with h; subst h; rfl
      · cases h

theorem attrSpec_ins {bs bs' : List (Bytes × Bytes)} {a : Attr} {ss : List SAttr} (h : attrSpec bs a = some (bs', ss))
    (hl : a.name.loc ≠ []) : Ins (fun e => e.name.space = xmlnsURL) [resA a] (ss.map SAttr.res) := by
  unfold attrSpec at h
  rw [if_neg hl] at h
  dsimp only at h
  split at h
  · rename_i hx
    split at h
    · cases h
    · rename_i hv
      split at h
      · cases h
      · rename_i b' p' f' hu
        injection h with h
        injection h with h1 h2
        subst h2
        have hv1 : (splitPrefixed a.name.loc).1 = [] := by
          by_contra hc; exact hv (Or.inl hc)
        have hv2 : a.value ≠ xmlURL := fun hc => hv (Or.inr hc)
        have := useNs_pref hu hl hv2
        dsimp only at this
        subst this
        have e : resA a = SAttr.res (declAttr a.name.loc a.value) := by
          unfold resA SAttr.res declAttr
          rw [splitPrefixed_plain hv1, hx]
        rw [e]
        exact Ins.refl _ _
  · split at h
    · split at h
      · cases h
      · rename_i b' p' new hu
        injection h with h
        injection h with h1 h2
        subst h2
        rw [List.map_append]
        have e : [resA a] = [] ++ [resA a] := rfl
        rw [e]
        refine Ins.append (Ins.all ?_) (Ins.refl _ _)
        intro e he
        split at he
        · simp only [List.map_cons, List.map_nil, List.mem_singleton] at he
          subst he; rfl
        · simp at he
    · rename_i hs
      split at h
      · cases h
      · injection h with h
        injection h with h1 h2
        subst h2
        have hs : a.name.space = [] := by simpa using hs
        have e : resA a = SAttr.res ⟨[], (splitPrefixed a.name.loc).2, [], a.value⟩ := by
          unfold resA SAttr.res
          rw [hs]
        rw [e]
        exact Ins.refl _ _

theorem attrsSpec_ins : ∀ {as : List Attr} {bs bs' : List (Bytes × Bytes)} {ss : List SAttr},
    attrsSpec bs as = some (bs', ss) → (∀ a ∈ as, a.name.loc ≠ []) →
    Ins (fun e => e.name.space = xmlnsURL) (as.map resA) (ss.map SAttr.res)
  | [], bs, bs', ss, h, _ => by
    simp only [attrsSpec] at h
    injection h with h; injection h with _ h; subst h
    exact .nil
  | a :: as, bs, bs', ss, h, hl => by
    simp only [attrsSpec] at h
    split at h
    · cases h
    · rename_i b1 s1 h1
      split at h
      · cases h
      · rename_i b2 s2 h2
        injection h with h; injection h with _ h; subst h
        rw [List.map_append]
        exact (attrSpec_ins h1 (hl a (by simp))).append (attrsSpec_ins h2 fun a ha => hl a (by simp [ha]))

/-! ### The attributes of one field -/

/-- Reading an attribute into a field. -/
def rd (io : FloatIO) (a : Attr) : Upd := fun s v => readAttr io s v a

theorem same_attrs (io : FloatIO) (k : Kind) (n : Name) (hk : (Sch.simple k).ok = true) : ∀ (l : List Val) (as : List Attr),
    (∀ v ∈ l, KindOk k v) → (∀ v ∈ l, LeafOk io k v) →
    concatM (l.map fun v => marshalAttr io (.simple k) n v) = .ok as →
    (∀ a ∈ as, a.name = n) ∧ as.length = l.length ∧ ∃ ws, List.Forall₂ (SameLeaf k) l ws ∧
      ∀ acc, runAt (.ptr (.slice (.simple k))) (.ptr (some (.slice acc))) (as.map fun a => rd io (resA a)) =
        .ok (.ptr (some (.slice (acc ++ ws))))
  | [], as, _, _, h => by
    simp only [List.map_nil, concatM] at h
    injection h with h; subst h
    exact ⟨by simp, rfl, [], .nil, fun acc => by simp [runAt]⟩
  | v :: l, as, ht, hc, h => by
    obtain ⟨s, w, h1, h2, h3, h4⟩ := leaf_attr io k v (ht v (by simp)) hk (hc v (by simp))
    have hm : marshalAttr io (.simple k) n v = .ok [⟨n, s⟩] := by
      have hv := typed_present (.simple k) v (ht v (by simp))
      cases v <;> first | (simp [Val.isAbsent] at hv; done) | (simp only [marshalAttr, h1])
    simp only [List.map_cons, concatM, hm] at h
    split at h
    · cases h
    · rename_i as' has
      injection h with h; subst h
      obtain ⟨k1, k2, ws, k3, k4⟩ := same_attrs io k n hk l as' (fun v hv => ht v (by simp [hv]))
        (fun v hv => hc v (by simp [hv])) has
      refine ⟨?_, by simp [k2], w :: ws, .cons h4 k3, fun acc => ?_⟩
      · intro a ha
        rcases List.mem_cons.1 ha with rfl | ha
        · rfl
        · exact k1 a ha
      · simp only [List.cons_append, List.nil_append, List.map_cons, runAt, rd, readAttr, resA, Sch.zero, h2, h3]
        have := k4 (acc ++ [w])
        rw [List.append_assoc] at this
        exact this

/-- The attributes of a field are read as its value. -/
theorem attr_back (io : FloatIO) (fi : Option FInfo) (s : Sch) (n : Name) (v : Val) (as : List Attr)
    (hs : attrShape s = true) (hok : s.ok = true) (ht : Typed s v) (hc : Canon io fi s v)
    (h : marshalAttr io s n v = .ok as) :
    (∀ a ∈ as, a.name = n) ∧ ∃ w, runAt s s.zero (as.map fun a => rd io (resA a)) = .ok w ∧ Back s v w := by
  have one : ∀ k v, KindOk k v → (Sch.simple k).ok = true → LeafOk io k v → ∃ t w, marshalAttr io (.simple k) n v = .ok [⟨n, t⟩] ∧
      readSimpleAttr io k (clean t) = .ok w ∧ SameLeaf k v w := by
    intro k v hv hk hl
    obtain ⟨t, w, h1, h2, h3, h4⟩ := leaf_attr io k v hv hk hl
    refine ⟨t, w, ?_, by rw [h2]; exact h3, h4⟩
    have hv := typed_present (.simple k) v hv
    cases v <;> first | (simp [Val.isAbsent] at hv; done) | (simp only [marshalAttr, h1])
  cases s with
  | simple k =>
    obtain ⟨t, w, h1, h2, h3⟩ := one k v ht hok (by simpa [Canon] using hc)
    rw [h1] at h; injection h with h; subst h
    refine ⟨by simp, w, ?_, by simpa [Back] using h3⟩
    simp only [List.map_cons, List.map_nil, runAt, rd, readAttr, resA, h2]
  | ptr s =>
    cases v with
    | ptr o =>
      cases o with
      | none =>
        simp only [marshalAttr] at h
        injection h with h; subst h
        exact ⟨by simp, .ptr none, by simp [runAt, Sch.zero], by simp [Back]⟩
      | some v =>
        simp only [Canon] at hc
        simp only [Typed] at ht
        simp only [Sch.ok] at hok
        cases s with
        | simple k =>
          obtain ⟨t, w, h1, h2, h3⟩ := one k v ht hok (by simpa [Canon] using hc.2)
          simp only [marshalAttr] at h
          simp only [h1] at h
          injection h with h; subst h
          refine ⟨by simp, .ptr (some w), ?_, by simpa [Back] using h3⟩
          simp only [List.map_cons, List.map_nil, runAt, rd, readAttr, resA, Sch.zero, h2]
        | slice s =>
          cases s with
          | simple k =>
            obtain ⟨l, rfl, hl⟩ := slice_typed ht
            simp only [marshalAttr] at h
            simp only [Canon] at hc
            obtain ⟨k1, k2, ws, k3, k4⟩ := same_attrs io k n hok l as hl (fun v hv => (hc.2 v hv).2) h
            refine ⟨k1, .ptr (some (.slice ws)), ?_, ?_⟩
            · have hne : l ≠ [] := by
                rintro rfl
                simp [Val.isNil] at hc
              cases as with
              | nil =>
                cases l with
                | nil => exact absurd rfl hne
                | cons _ _ => simp at k2
              | cons a as =>
                have := k4 []
                simp only [List.map_cons, runAt, rd, List.nil_append] at this ⊢
                rw [readAttr_ptr _ _ _ _ rfl] at this
                rw [readAttr_ptr _ _ _ _ rfl]
                exact this
            · simp only [Back, Sch.isAttr, Bool.false_eq_true, if_false]
              exact k3.imp fun a b hab => by simpa [Back] using hab
          | _ => simp [attrShape] at hs
        | _ => simp [attrShape] at hs
    | _ => simp [Typed] at ht
  | _ => simp [attrShape] at hs

/-! ### Conditions on a struct -/

/-- `structRt`, as facts. -/
structure StructRt (xn : Option FInfo) (infos : List FInfo) (subs : List Sch) : Prop where
  len : infos.length = subs.length
  rt : ∀ (i : Nat) (fi : FInfo) (s : Sch), infos[i]? = some fi → subs[i]? = some s → fieldRt fi s = true
  locs : ∀ (i j : Nat) (fi fj : FInfo), infos[i]? = some fi → infos[j]? = some fj → fi.mode = fj.mode →
    fi.mode = .elem ∨ fi.mode = .attr → fi.loc = fj.loc → i = j
  single : ∀ (i j : Nat) (fi fj : FInfo), infos[i]? = some fi → infos[j]? = some fj → fi.mode = fj.mode →
    fi.mode = .chardata ∨ fi.mode = .anyAttr → i = j
  one : ∀ (i j : Nat) (fi fj : FInfo), infos[i]? = some fi → infos[j]? = some fj → fi.mode = .innerxml →
    fj.mode = .innerxml → i = j
  inner : modeField infos .innerxml = none ∨ ∀ f ∈ infos, f.mode ≠ .elem ∧ f.mode ≠ .chardata
  grps : ∀ (i : Nat) (fi : FInfo), infos[i]? = some fi → fi.grp ≠ none → ∃ (j : Nat) (fj : FInfo) (s : Sch),
    infos[j]? = some fj ∧ subs[j]? = some s ∧ required fj s = true ∧ fj.grp = fi.grp
  xmlns : (∃ x, xn = some x ∧ x.loc ≠ [] ∧ x.xmlns = []) ∨ ∀ fi ∈ infos, fi.mode = .attr → fi.loc ≠ xmlnsPrefix

theorem zip_get {α β} {l : List α} {m : List β} {i : Nat} {a : α} {b : β} (h1 : l[i]? = some a) (h2 : m[i]? = some b) :
    (a, b) ∈ l.zip m := by
  have : (l.zip m)[i]? = some (a, b) := by simp [List.getElem?_zip_eq_some, h1, h2]
  exact List.mem_of_getElem? this

theorem pairwise_idx {α} {R : α → α → Prop} {l : List α} (h : l.Pairwise R) {i j : Nat} {a b : α} (hi : l[i]? = some a)
    (hj : l[j]? = some b) (hn : ¬ R a b) (hn' : ¬ R b a) : i = j := by
  rw [List.pairwise_iff_getElem] at h
  obtain ⟨hi', rfl⟩ := List.getElem?_eq_some_iff.1 hi
  obtain ⟨hj', rfl⟩ := List.getElem?_eq_some_iff.1 hj
  rcases Nat.lt_trichotomy i j with hlt | he | hlt
  · exact absurd (h i j hi' hj' hlt) hn
  · exact he
  · exact absurd (h j i hj' hi' hlt) hn'

theorem StructRt.of {xn : Option FInfo} {infos : List FInfo} {subs : List Sch} (h : structRt xn infos subs = true) :
    StructRt xn infos subs := by
  simp only [structRt, Bool.and_eq_true, beq_iff_eq, List.all_eq_true, decide_eq_true_eq, Bool.or_eq_true,
    List.any_eq_true] at h
  obtain ⟨⟨⟨⟨⟨⟨h1, h2⟩, h3⟩, h4⟩, hin⟩, h5⟩, h6⟩ := h
  refine ⟨h1, ?_, ?_, ?_, ?_, ?_, ?_, ?_⟩
  · intro i fi s hi hs
    exact h2 (fi, s) (zip_get hi hs)
  · intro i j fi fj hi hj hm hm' hl
    refine pairwise_idx h3 hi hj (fun h => h hm hm' hl) (fun h => h hm.symm (hm ▸ hm') hl.symm)
  · intro i j fi fj hi hj hm hm'
    refine pairwise_idx h4 hi hj (fun h => ?_) (fun h => ?_)
    · rcases hm' with hm' | hm'
      · exact (h hm).1 hm'
      · exact (h hm).2.1 hm'
    · rcases hm' with hm' | hm'
      · exact (h hm.symm).1 (hm ▸ hm')
      · exact (h hm.symm).2.1 (hm ▸ hm')
  · intro i j fi fj hi hj hm hm'
    exact pairwise_idx h4 hi hj (fun h => (h (hm.trans hm'.symm)).2.2 hm) (fun h => (h (hm'.trans hm.symm)).2.2 hm')
  · exact hin.imp_right fun h f hf => by simpa using h f hf
  · intro i fi hi hg
    rcases h5 fi (List.mem_of_getElem? hi) with h | ⟨⟨fj, s⟩, hmem, hreq, hgrp⟩
    · exact absurd h hg
    · obtain ⟨j, hj⟩ := List.mem_iff_getElem?.1 hmem
      rw [List.getElem?_zip_eq_some] at hj
      exact ⟨j, fj, s, hj.1, hj.2, hreq, hgrp⟩
  · cases xn with
    | none =>
      refine Or.inr fun fi hfi hm hl => ?_
      have := h6
      simp only [List.all_eq_true] at this
      simpa [hm, hl] using this fi hfi
    | some x =>
      simp only [Bool.or_eq_true, Bool.and_eq_true, bne_iff_ne, beq_iff_eq] at h6
      rcases h6 with h6 | h6
      · exact Or.inl ⟨x, rfl, h6⟩
      · refine Or.inr fun fi hfi hm hl => ?_
        simp only [List.all_eq_true] at h6
        simpa [hm, hl] using h6 fi hfi

/-! ### Which attributes go to which field -/

/-- The attributes that go to field `i`. -/
def goes (F : List FInfo) (i : Nat) (as : List Attr) : List Attr := as.filter fun a => decide (attrField F a.name = some i)

theorem opsAt_attrOps (io : FloatIO) (F : List FInfo) (i : Nat) : ∀ as : List Attr,
    opsAt i (attrOps io F as) = (goes F i as).map (rd io)
  | [] => rfl
  | a :: as => by
    have ih := opsAt_attrOps io F i as
    simp only [attrOps, goes, List.filterMap_cons, List.filter_cons] at ih ⊢
    cases h : attrField F a.name with
    | none => simp only [Option.map_none]; simpa using ih
    | some j =>
      simp only [Option.map_some, opsAt_cons, ih]
      by_cases hij : j = i
      · subst hij; simp; rfl
      · rw [if_neg hij, if_neg (by simpa using hij)]

theorem goes_append (F : List FInfo) (i : Nat) (a b : List Attr) : goes F i (a ++ b) = goes F i a ++ goes F i b := by
  simp [goes]

theorem goes_all {F : List FInfo} {i : Nat} {as : List Attr} (h : ∀ a ∈ as, attrField F a.name = some i) :
    goes F i as = as := by
  unfold goes
  rw [List.filter_eq_self]
  intro a ha
  simpa using h a ha

theorem goes_none {F : List FInfo} {i k : Nat} {as : List Attr} (h : ∀ a ∈ as, attrField F a.name = some k) (hk : k ≠ i) :
    goes F i as = [] := by
  unfold goes
  rw [List.filter_eq_nil_iff]
  intro a ha
  rw [h a ha]
  simpa using hk

theorem attrField_own {xn : Option FInfo} {F : List FInfo} {subs : List Sch} (hs : StructRt xn F subs) {i : Nat} {fi : FInfo}
    (hi : F[i]? = some fi) (hm : fi.mode = .attr) : attrField F ⟨fi.xmlns, fi.loc⟩ = some i := by
  have : attrKey F ⟨fi.xmlns, fi.loc⟩ = some i := by
    unfold attrKey
    refine findIdx?_unique hi (by simp [hm]) fun j fj hj hp => ?_
    simp only [Bool.and_eq_true, beq_iff_eq] at hp
    exact hs.locs j i fj fi hj hi (hp.1.1.trans hm.symm) (Or.inr hp.1.1) hp.2
  unfold attrField
  rw [this]

theorem fieldRt_attr {fi : FInfo} {s : Sch} (h : fieldRt fi s = true) (hm : fi.mode = .attr) :
    attrShape s = true ∧ tagOk fi = true := by
  unfold fieldRt at h
  simpa only [hm, Bool.and_eq_true] using h

theorem fieldRt_elem {fi : FInfo} {s : Sch} (h : fieldRt fi s = true) (hm : fi.mode = .elem) :
    elemShape s = true ∧ tagOk fi = true := by
  unfold fieldRt at h
  simpa only [hm, Bool.and_eq_true] using h

theorem fieldRt_any {fi : FInfo} {s : Sch} (h : fieldRt fi s = true) (hm : fi.mode = .anyAttr) : s = .slice .attr := by
  unfold fieldRt at h
  simp only [hm] at h
  split at h
  · rfl
  · cases h

theorem fieldRt_chars {fi : FInfo} {s : Sch} (h : fieldRt fi s = true) (hm : fi.mode = .chardata) : s = .simple .str := by
  unfold fieldRt at h
  simp only [hm] at h
  split at h
  · rfl
  · cases h

/-- What is left of the attributes of a field. -/
def AttrDone (io : FloatIO) (fi : FInfo) (s : Sch) (v : Val) (G : List Attr) : Prop :=
  (fi.mode = .attr → (∃ w, runAt s s.zero (G.map (rd io)) = .ok w ∧ Back s v w) ∧ (required fi s = true → G ≠ [])) ∧
  (fi.mode = .anyAttr → ∃ l, s = .slice .attr ∧ v = .slice l ∧ G = attrsIn l)

theorem isEmpty_back (s : Sch) (v : Val) (ht : Typed s v) (h : isEmpty s v = true) : Back s v s.zero := by
  cases s with
  | simple k =>
    cases k <;> cases v <;> simp only [Typed, KindOk] at ht <;>
      simp_all [isEmpty, Back, SameLeaf, Sch.zero, Kind.zero, floatIsZero, ZeroBits, sameDur_zero]
  | ptr s =>
    cases v with
    | ptr o => cases o <;> simp_all [isEmpty, Back, Sch.zero]
    | _ => simp [Typed] at ht
  | slice s =>
    cases v with
    | slice l => cases l <;> simp_all [isEmpty, Back, Sch.zero, attrsIn, Ins.nil]
    | _ => simp [Typed] at ht
  | struct _ _ _ _ =>
    cases v <;> simp_all [isEmpty, Typed]
  | attr => cases v <;> simp_all [isEmpty, Typed]
  | name => cases v <;> simp_all [isEmpty, Typed]
  | bad e => simp [Typed] at ht

theorem resA_self {a : Attr} (h1 : NCName a.name.loc) (h2 : clean a.value = a.value) : resA a = a := by
  unfold resA
  rw [splitPrefixed_nc h1, h2]

theorem anyAttrs_items (io : FloatIO) (fi : Option FInfo) (n : Name) : ∀ (l : List Val) (as : List Attr),
    (∀ v ∈ l, Typed .attr v) → (∀ v ∈ l, Canon io fi .attr v) → concatM (l.map fun v => marshalAttr io .attr n v) = .ok as →
    as = attrsIn l ∧ (∀ a ∈ as, .attr a ∈ l) ∧ as.map resA = as ∧ ∀ a ∈ as, a.name.loc ≠ []
  | [], as, _, _, h => by
    simp only [List.map_nil, concatM] at h
    injection h with h; subst h
    simp [attrsIn]
  | v :: l, as, ht, hc, h => by
    have hv := ht v (by simp)
    have hcv := hc v (by simp)
    cases v with
    | attr a =>
      simp only [List.map_cons, concatM, marshalAttr] at h
      split at h
      · cases h
      · rename_i as' has
        injection h with h; subst h
        obtain ⟨h1, h2, h3, h4⟩ := anyAttrs_items io fi n l as' (fun v hv => ht v (by simp [hv]))
          (fun v hv => hc v (by simp [hv])) has
        simp only [Canon] at hcv
        refine ⟨?_, ?_, ?_, ?_⟩
        · rw [h1]; rfl
        · intro b hb
          rcases List.mem_append.1 hb with hb | hb
          · simp at hb; subst hb; simp
          · exact List.mem_cons_of_mem _ (h2 b hb)
        · simp only [List.cons_append, List.nil_append, List.map_cons, h3, resA_self hcv.1 hcv.2]
        · intro b hb
          rcases List.mem_append.1 hb with hb | hb
          · simp at hb; subst hb; exact isName_ne hcv.1.1
          · exact h4 b hb
    | _ => simp [Typed] at hv

/-- The attributes of the last fields. -/
theorem attrs_fields (io : FloatIO) {xn : Option FInfo} {F : List FInfo} {S : List Sch}
    (hs : StructRt xn F S) : ∀ (fis : List FInfo) (ss : List Sch) (vs : List Val) (as : List Attr) (pre : List FInfo),
    F = pre ++ fis → (∀ (j : Nat) (fi : FInfo) (s : Sch), fis[j]? = some fi → ss[j]? = some s → fieldRt fi s = true) →
    oks ss = true → Typeds ss vs → Canons io fis ss vs →
    (∀ (j : Nat) (fi : FInfo) (l : List Val), fis[j]? = some fi → fi.mode = .anyAttr → vs[j]? = some (.slice l) →
      ∀ a, .attr a ∈ l → attrField F a.name = some (pre.length + j)) →
    marshalAttrs io fis ss vs = .ok as →
    (∀ a ∈ as, a.name.loc ≠ []) ∧ ∀ i, (i < pre.length → goes F i (as.map resA) = []) ∧
      ∀ (j : Nat) (fi : FInfo) (s : Sch) (v : Val), i = pre.length + j → fis[j]? = some fi → ss[j]? = some s →
        vs[j]? = some v → AttrDone io fi s v (goes F i (as.map resA))
  | [], ss, vs, as, pre, hF, hrt, hok, ht, hc, hany, h => by
    have : as = [] := by
      cases ss <;> cases vs <;> simp only [marshalAttrs] at h <;> injection h with h <;> exact h.symm
    subst this
    refine ⟨by simp, fun i => ⟨fun _ => rfl, ?_⟩⟩
    intro j fi s v _ hj
    simp at hj
  | fi :: fis, [], vs, as, pre, hF, hrt, hok, ht, hc, hany, h => by simp [Canons] at hc
  | fi :: fis, s :: ss, [], as, pre, hF, hrt, hok, ht, hc, hany, h => by simp [Canons] at hc
  | fi :: fis, s :: ss, v :: vs, as, pre, hF, hrt, hok, ht, hc, hany, h => by
    simp only [Canons] at hc
    simp only [Typeds] at ht
    simp only [oks, Bool.and_eq_true] at hok
    have hty : Typed s v := by
      rcases ht.1 with h | h
      · rw [hc.1] at h; cases h
      · exact h
    have hfi := hrt 0 fi s rfl rfl
    have hget : F[pre.length]? = some fi := by subst hF; simp
    -- the rest
    have ih := fun (b : List Attr) (hb : marshalAttrs io fis ss vs = .ok b) =>
      attrs_fields io hs fis ss vs b (pre ++ [fi]) (by simp [hF]) (fun j f s h1 h2 => hrt (j + 1) f s h1 h2) hok.2 ht.2
        hc.2.2 (fun j f l h1 h2 h3 a ha => by
          have := hany (j + 1) f l h1 h2 h3 a ha
          rw [this]; simp; omega) hb
    -- this field and the rest
    have comb : ∀ (a b : List Attr), marshalAttrs io fis ss vs = .ok b → as = a ++ b → (∀ x ∈ a, x.name.loc ≠ []) →
        (∀ x ∈ a.map resA, attrField F x.name = some pre.length) → AttrDone io fi s v (a.map resA) →
        (∀ a ∈ as, a.name.loc ≠ []) ∧ ∀ i, (i < pre.length → goes F i (as.map resA) = []) ∧
          ∀ (j : Nat) (f : FInfo) (t : Sch) (w : Val), i = pre.length + j → (fi :: fis)[j]? = some f → (s :: ss)[j]? = some t →
            (v :: vs)[j]? = some w → AttrDone io f t w (goes F i (as.map resA)) := by
      intro a b hb hab hl hgo hd
      obtain ⟨i1, i2⟩ := ih b hb
      subst hab
      refine ⟨?_, fun i => ⟨fun hi => ?_, ?_⟩⟩
      · intro x hx
        rcases List.mem_append.1 hx with hx | hx
        · exact hl x hx
        · exact i1 x hx
      · rw [List.map_append, goes_append, goes_none hgo (by omega), (i2 i).1 (by simp; omega)]; rfl
      · intro j f t w hij h1 h2 h3
        rw [List.map_append, goes_append]
        cases j with
        | zero =>
          simp at h1 h2 h3
          subst h1 h2 h3
          have : i = pre.length := by omega
          subst this
          rw [goes_all hgo, (i2 _).1 (by simp), List.append_nil]
          exact hd
        | succ j =>
          rw [goes_none hgo (by omega), List.nil_append]
          exact (i2 i).2 j f t w (by simp; omega) (by simpa using h1) (by simpa using h2) (by simpa using h3)
    have skip : marshalAttrs io fis ss vs = .ok as → AttrDone io fi s v [] → _ := fun hb hd =>
      comb [] as hb rfl (by simp) (by simp) hd
    simp only [marshalAttrs] at h
    split at h
    · rename_i hmode
      split at h
      · rename_i hom
        rcases hom.2 with he | he
        · refine skip h ⟨fun hm => ⟨⟨_, rfl, isEmpty_back s v hty he⟩, ?_⟩, fun hm => ?_⟩
          · intro hr
            simp [required, hom.1] at hr
          · have := fieldRt_any hfi hm
            subst this
            obtain ⟨l, rfl, hl⟩ := slice_typed hty
            refine ⟨l, rfl, rfl, ?_⟩
            cases l with
            | nil => rfl
            | cons _ _ => simp [isEmpty] at he
        · rw [hc.1] at he; cases he
      · split at h
        · cases h
        · rename_i a ha
          split at h
          · cases h
          · rename_i b hb
            injection h with h
            rcases hmode with hm | hm
            · have hfi := fieldRt_attr hfi hm
              obtain ⟨sp, sne, sx⟩ := splitPrefixed_tag hfi.2
              obtain ⟨a1, w, a2, a3⟩ := attr_back io (some fi) s _ v a hfi.1 hok.1 hty (hc.2.1.1 (by rw [hm]; simp)) ha
              refine comb a b hb h.symm ?_ ?_ ⟨fun _ => ⟨⟨w, by rw [List.map_map]; exact a2, a3⟩, ?_⟩, fun hm' => ?_⟩
              · intro x hx
                rw [a1 x hx]; exact sne
              · intro x hx
                obtain ⟨y, hy, rfl⟩ := List.mem_map.1 hx
                have : (resA y).name = ⟨fi.xmlns, fi.loc⟩ := by
                  simp only [resA, a1 y hy, sp]
                rw [this]
                exact attrField_own hs hget hm
              · intro hr
                have hsim : ∃ k, s = .simple k := by
                  cases s <;> simp [required] at hr
                  exact ⟨_, rfl⟩
                obtain ⟨k, rfl⟩ := hsim
                cases hsa : simpleAttr io k v with
                | error e =>
                  obtain ⟨s', w', l1, _⟩ := leaf_attr io k v hty hok.1 (by simpa [Canon] using hc.2.1.1 (by rw [hm]; simp))
                  rw [hsa] at l1; cases l1
                | ok t =>
                  have : marshalAttr io (.simple k) ⟨fi.xmlns, joinPrefixed fi.pre fi.loc⟩ v =
                      .ok [⟨⟨fi.xmlns, joinPrefixed fi.pre fi.loc⟩, t⟩] := by
                    have hp := hc.1
                    cases v <;> first | (simp [Val.isAbsent] at hp; done) | (simp only [marshalAttr, hsa])
                  rw [this] at ha
                  injection ha with ha; subst ha
                  simp
              · rw [hm] at hm'; cases hm'
            · have := fieldRt_any hfi hm
              subst this
              obtain ⟨l, rfl, hl⟩ := slice_typed hty
              have hcl := hc.2.1.1 (by rw [hm]; simp)
              simp only [Canon] at hcl
              simp only [marshalAttr] at ha
              obtain ⟨k1, k2, k3, k4⟩ := anyAttrs_items io (some fi) _ l a hl (fun v hv => (hcl v hv).2) ha
              refine comb a b hb h.symm k4 ?_ ⟨fun hm' => ?_, fun _ => ⟨l, rfl, rfl, by rw [k3, k1]⟩⟩
              · rw [k3]
                intro x hx
                exact hany 0 fi l rfl hm rfl x (k2 x hx)
              · rw [hm] at hm'; cases hm'
    · rename_i hmode
      exact skip h ⟨fun hm => absurd (Or.inl hm) hmode, fun hm => absurd (Or.inr hm) hmode⟩

end Verif.Bind
