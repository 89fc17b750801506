import Verif.NsProps

/-!
A value that satisfies `NsOk` is written as elements that keep their names.
-/
namespace Verif.Bind

open Verif.Xml

theorem from_mono {P Q : Pairs} (h : ∀ x ∈ P, x ∈ Q) {bs : List (Bytes × Bytes)} (hb : From P bs) : From Q bs :=
  fun x hx => h x (hb x hx)

/-- No prefix of the table is the name of an attribute. -/
theorem table_locs {A X T : Pairs} {L : List Bytes} (hX : extOk A X L = true) (hAL : ∀ x ∈ A, x.1 ∉ L)
    (hA : ∀ x ∈ T, x ∈ A) : ∀ p u, (p, u) ∈ T ++ X → p ∉ L := by
  simp only [extOk, Bool.and_eq_true, List.all_eq_true, decide_eq_true_eq] at hX
  intro p u h
  rcases List.mem_append.1 h with h | h
  · exact hAL _ (hA _ h)
  · exact (hX.2 _ h).1

/-- What is needed of the content of a struct. -/
def KidsKept (io : FloatIO) (A X : Pairs) (L : List Bytes) (F : List FInfo) (S : List Sch) (vs : List Val) : Prop :=
  ∀ T D sc ns env items, nsRts A T sc F S = true → NsOks X D ns F S vs → marshalFields io ns F S vs = .ok items →
    EnvOk (T ++ X) D sc ns env → KeptIn L env items

theorem join_xmlns {f : FInfo} (ht : tagOk f = true) (h : joinPrefixed f.pre f.loc = xmlnsPrefix) :
    f.loc = xmlnsPrefix ∧ f.pre = [] := by
  have h1 := (splitPrefixed_tag ht).1
  rw [h, splitPrefixed_nc (by decide +kernel)] at h1
  injection h1 with h1 h2
  exact ⟨h2.symm, h1.symm⟩

theorem tagless_kept (io : FloatIO) (A X : Pairs) (L : List Bytes) (hX : extOk A X L = true)
    (hAL : ∀ x ∈ A, x.1 ∉ L) (T D : Pairs) (f : FInfo) (ns : Bytes) (tn : Bytes) (x : FInfo) (hx : x.loc = [])
    (F : List FInfo) (S : List Sch) (sc : Bool)
    (hns : (Sch.struct tn (some x) F S).nsRt A T (some f) sc = true) (hs : StructRt (some x) F S) (xv : Name)
    (vs : List Val) (env : Env) (htag : tagOk f = true)
    (hty : Typeds S vs) (hc : Canon io (some f) (.struct tn (some x) F S) (.struct xv vs))
    (hn : NsOk X D ns (some f) (.struct tn (some x) F S) (.struct xv vs)) (he : EnvOk (T ++ X) D sc ns env)
    (hk : KidsKept io A X L F S vs) (items : List Item)
    (hm : marshalV io ns (some f) (.struct tn (some x) F S) (.struct xv vs) = .ok items) : Kept L env items := by
  have htl : tagless (some x) = true := by simp [tagless, hx]
  simp only [Sch.nsRt, htl, if_true, Bool.and_eq_true, List.all_eq_true, decide_eq_true_eq] at hns
  obtain ⟨⟨⟨⟨⟨_, hf⟩, hT⟩, hTA⟩, hfields⟩, hrs⟩ := hns
  simp only [elemTag, Bool.and_eq_true, bne_iff_ne, beq_iff_eq] at hf
  simp only [Canon] at hc
  obtain ⟨hname, hany, hcs⟩ := hc
  simp only [NsOk] at hn
  obtain ⟨hn1, hn2, hn3⟩ := hn
  obtain ⟨hn1, hsp⟩ := hn1 htl
  have hP := PairsOk.append hX hT hTA
  simp only [marshalV] at hm
  split at hm
  · cases hm
  rename_i attrs hattrs
  split at hm
  · cases hm
  rename_i kids hkids
  injection hm with hm; subst hm
  have hreset : resetNs ns (some x) (startName (some x) xv (some f) tn) = [] := by
    unfold resetNs
    dsimp only
    rw [if_neg]
    rintro ⟨h1, _, _, h4⟩
    rcases hn1 with h | h
    · exact h4 h
    · rw [h1] at h; exact h4 h.symm
  rw [hreset, List.append_nil]
  obtain ⟨hnx, hnf⟩ := hname
  obtain ⟨_, _, hpre⟩ := hnx x rfl
  replace hpre := hpre hx
  obtain ⟨hloc, _⟩ := hnf f rfl
  generalize hnm : startName (some x) xv (some f) tn = n at *
  have hnl : n.loc = f.loc := by rw [← splitPrefixed_plain hpre]; exact hloc
  have hq : QLocal n.loc := by
    rw [hnl]
    simp only [tagOk, Bool.and_eq_true, decide_eq_true_eq] at htag
    exact Or.inl htag.1.1
  have hnx' : (splitPrefixed n.loc).2 ≠ xmlnsPrefix := by rw [hloc]; exact hf.1.1
  -- attributes
  have hsrc := marshalAttrs_source io F S vs attrs hs.rt hty hattrs
  have hfield : ∀ (a : Attr) (i : Nat) (g : FInfo) (s : Sch), F[i]? = some g → S[i]? = some s → g.mode = .attr →
      a.name = ⟨g.xmlns, joinPrefixed g.pre g.loc⟩ → AttrGood (T ++ X) D a := by
    intro a i g s h1 h2 hm hnm
    have htg := (fieldRt_attr (hs.rt i g s h1 h2) hm).2
    have hg := hfields g (List.mem_of_getElem? h1)
    simp only [hm, bne_self_eq_false, Bool.false_or, Bool.and_eq_true, beq_iff_eq, bne_iff_ne] at hg
    have hspl := (splitPrefixed_tag htg).1
    refine ⟨by rw [hnm]; exact tag_qlocal htg, Or.inl ⟨by rw [hnm]; exact hg.1, ?_⟩⟩
    intro h
    rw [hnm] at h
    dsimp only at h
    rw [hspl] at h
    exact absurd h hg.2
  obtain ⟨hags, hdecl⟩ := marshalAttrs_good io (P := T ++ X) (D := D) F S vs attrs hs.rt hty hattrs
    (fun a _ i f s v h1 h2 _ h4 h5 _ => hfield a i f s h1 h2 h4 h5)
    (fun i f l h1 hm h3 => anys_good (fun x hx => List.mem_append_right _ hx) (fun a ha => by
      obtain ⟨s, h2⟩ : ∃ s, S[i]? = some s := by
        have := hs.len
        have hi : i < S.length := by rw [← this]; exact (List.getElem?_eq_some_iff.1 h1).1
        exact ⟨S[i], List.getElem?_eq_getElem hi⟩
      have hsl := fieldRt_any (hs.rt i f s h1 h2) hm
      subst hsl
      exact canon_any (canons_get hcs h1 h2 h3 (by rw [hm]; simp)) (mem_of_attrsIn ha)) (hn2 i f l h1 hm h3))
  have hgood : ∀ a ∈ attrs, (∃ D, AttrGood (T ++ X) D a) ∧ (a.name.space = xmlnsURL → (a.name.loc, a.value) ∈ X) ∧
      (a.name = ⟨[], xmlnsPrefix⟩ → a.value = n.space ∧ n.space ≠ []) := by
    intro a ha
    obtain ⟨i, g, s, v, h1, h2, h3, h4⟩ := hsrc a ha
    rcases h4 with ⟨hm, hnm, _⟩ | ⟨hm, l, rfl, hal⟩
    · have htg := (fieldRt_attr (hs.rt i g s h1 h2) hm).2
      have hg := hfields g (List.mem_of_getElem? h1)
      simp only [hm, bne_self_eq_false, Bool.false_or, Bool.and_eq_true, beq_iff_eq, bne_iff_ne] at hg
      have hspl := (splitPrefixed_tag htg).1
      refine ⟨⟨D, hfield a i g s h1 h2 hm hnm⟩, ?_, ?_⟩
      · intro h
        rw [hnm] at h
        exact absurd h (splitPrefixed_tag htg).2.2
      · intro h
        rw [hnm] at h
        injection h with _ h
        exact absurd (join_xmlns htg h).1 hg.2
    · have hsl := fieldRt_any (hs.rt i g s h1 h2) hm
      subst hsl
      obtain ⟨c1, c2⟩ := canon_any (canons_get hcs h1 h2 h3 (by rw [hm]; simp)) hal
      obtain ⟨D', hA⟩ := anyNss_mem (hn2 i g l h1 hm h3) a (mem_attrsIn hal)
      refine ⟨⟨D', any_good (fun x hx => List.mem_append_right _ hx) c1 c2 hA⟩, ?_, ?_⟩
      · intro h
        rcases hA with hA | hA | hA
        · rw [hA.1] at h; exact absurd h.symm xmlnsURL_ne
        · exact hA.2
        · exact absurd h hA.1
      · intro h
        rcases hA with hA | hA | hA
        · have := hA.2 (by rw [h])
          exact ⟨this.1, this.2.1⟩
        · have := hA.1; rw [h] at this; exact absurd this.symm xmlnsURL_ne
        · obtain ⟨_, p, hA, _⟩ := hA
          have := (hP.uri _ _ (List.mem_append_right _ hA)).1
          rw [h] at this; exact absurd rfl this
  have kidDecls : ∀ {env' : Env}, (∀ x ∈ D, x ∈ env'.bs) → (∀ x ∈ attrs.flatMap declOf, x ∈ env'.bs) →
      ∀ x ∈ anyDecls F vs ++ D, x ∈ env'.bs := by
    intro env' h1 h2 x hx
    rcases List.mem_append.1 hx with hx | hx
    · exact h2 x (hdecl x hx)
    · exact h1 x hx
  by_cases hne : n.space = []
  · have hgn : env.given = none := by
      rcases he.given with h | ⟨h, h'⟩
      · exact h
      · rcases hn1 with h1 | h1
        · exact absurd h1 h'
        · rw [hne] at h1; exact absurd h1.symm h'
    have hpl := place_empty env n attrs hne hpre hnx'
    refine kept_elem hP (table_locs hX hAL hTA) hq hpl he.bs (by simp) he.decls hags
      (fun a ha => (hgood a ha).1) ?_ ?_
    · dsimp only; rw [hgn]; exact defaultsOk_none _
    · intro env' hb hD1 hD2 hg
      dsimp only at hg
      rw [hgn] at hg
      refine hk T _ true n.space env' kids hrs hn3 hkids ⟨hb, kidDecls hD1 hD2, fun h => by simp at h, Or.inl hg⟩
  · have hgn : env.given = none ∨ env.given = some n.space := by
      rcases he.given with h | ⟨h, h'⟩
      · exact Or.inl h
      · rcases hn1 with h1 | h1
        · exact absurd h1 h'
        · rw [h1]; exact Or.inr h
    obtain ⟨pl, hpl, hb, hd, hg, hgd, hi⟩ := place_name hP env he.bs n attrs hne hsp hpre hnx' hgn
      (fun a ha h => List.mem_append_right _ ((hgood a ha).2.1 h))
    refine kept_elem hP (table_locs hX hAL hTA) hq hpl hb hd (fun x hx => hi x (he.decls x hx)) hags
      (fun a ha => (hgood a ha).1) ?_ ?_
    · unfold defaultsOk
      rw [List.all_eq_true]
      intro u hu
      obtain ⟨a, ha, hna, hva⟩ := ownDefaults_mem hu
      have := ((hgood a ha).2.2 hna).1
      have hu' : u = n.space := by rw [← hva, this]
      subst hu'
      rw [hgd hu]
      simp
    · intro env' hb hD1 hD2 hg'
      refine hk T _ true n.space env' kids hrs hn3 hkids ⟨hb, kidDecls hD1 hD2, fun h => by simp at h, ?_⟩
      rw [hg']
      rcases hg with h | h
      · exact Or.inl h
      · exact Or.inr ⟨h, hne⟩

theorem tagged_kept (io : FloatIO) (A X : Pairs) (L : List Bytes) (hX : extOk A X L = true)
    (hAL : ∀ x ∈ A, x.1 ∉ L) (T D : Pairs) (fi : Option FInfo) (ns : Bytes) (tn : Bytes) (xn : Option FInfo)
    (hx : tagless xn = false) (F : List FInfo) (S : List Sch) (sc : Bool)
    (hns : (Sch.struct tn xn F S).nsRt A T fi sc = true) (hs : StructRt xn F S) (xv : Name)
    (vs : List Val) (env : Env) (htag : ∀ f, fi = some f → tagOk f = true)
    (hty : Typeds S vs) (hc : Canon io fi (.struct tn xn F S) (.struct xv vs))
    (hn : NsOk X D ns fi (.struct tn xn F S) (.struct xv vs)) (he : EnvOk (T ++ X) D sc ns env)
    (hk : KidsKept io A X L F S vs) (items : List Item)
    (hm : marshalV io ns fi (.struct tn xn F S) (.struct xv vs) = .ok items) : Kept L env items := by
  simp only [Sch.nsRt, hx, Bool.false_eq_true, if_false, Bool.and_eq_true, List.all_eq_true, decide_eq_true_eq,
    Bool.not_eq_true'] at hns
  obtain ⟨⟨⟨⟨⟨hsc, hnm⟩, hfields⟩, hT⟩, hTA⟩, hrs⟩ := hns
  subst hsc
  simp only [Canon] at hc
  obtain ⟨hname, hany, hcs⟩ := hc
  simp only [NsOk] at hn
  obtain ⟨_, hn2, hn3⟩ := hn
  generalize hT' : T ++ startPairs fi xn ++ attrPairs F = T' at *
  have hP := PairsOk.append hX hT hTA
  have hgn := he.plain rfl
  have hbs : From (T' ++ X) env.bs := from_mono (fun x hx => by
    rcases List.mem_append.1 hx with hx | hx
    · rw [← hT']; simp [hx]
    · exact List.mem_append_right _ hx) he.bs
  simp only [marshalV] at hm
  split at hm
  · cases hm
  rename_i attrs hattrs
  split at hm
  · cases hm
  rename_i kids hkids
  injection hm with hm; subst hm
  have hreset : resetNs ns xn (startName xn xv fi tn) = [] := by
    unfold resetNs
    cases xn with
    | none => rfl
    | some x =>
      dsimp only
      rw [if_neg]
      rintro ⟨_, _, h, _⟩
      simp [tagless, h] at hx
  rw [hreset, List.append_nil]
  -- the name
  have hstart : QLocal (startName xn xv fi tn).loc ∧ (splitPrefixed (startName xn xv fi tn).loc).2 ≠ xmlnsPrefix ∧
      (((startName xn xv fi tn).space = [] ∧ (splitPrefixed (startName xn xv fi tn).loc).1 = []) ∨
        ((startName xn xv fi tn).space ≠ [] ∧ xn = none ∧
          ((splitPrefixed (startName xn xv fi tn).loc).1, (startName xn xv fi tn).space) ∈ T' ++ X)) := by
    cases xn with
    | some x =>
      simp only [Bool.and_eq_true, beq_iff_eq, bne_iff_ne, decide_eq_true_eq] at hnm
      obtain ⟨⟨⟨h1, h2⟩, h3⟩, h4⟩ := hnm
      have hst : startName (some x) xv fi tn = ⟨[], x.loc⟩ := by
        have : x.loc ≠ [] := isName_ne h4.1
        simp [startName, this, h1, h2, joinPrefixed]
      rw [hst]
      refine ⟨Or.inl h4, ?_, Or.inl ⟨rfl, ?_⟩⟩
      · dsimp only; rw [splitPrefixed_nc h4]; exact h3
      · dsimp only; rw [splitPrefixed_nc h4]
    | none =>
      cases fi with
      | none => simp at hnm
      | some f =>
        simp only [elemTag, Bool.and_eq_true, bne_iff_ne, beq_iff_eq] at hnm
        obtain ⟨sp, sne, sx⟩ := splitPrefixed_tag (htag f rfl)
        have hst : startName none xv (some f) tn = ⟨f.xmlns, joinPrefixed f.pre f.loc⟩ := by
          simp [startName, sne]
        rw [hst]
        dsimp only
        rw [sp]
        refine ⟨tag_qlocal (htag f rfl), hnm.1, ?_⟩
        by_cases h : f.xmlns = []
        · refine Or.inl ⟨h, ?_⟩
          have := hnm.2
          rw [h] at this
          simpa using this.symm
        · refine Or.inr ⟨h, rfl, ?_⟩
          rw [← hT']
          simp [startPairs, tagPair, h]
  obtain ⟨hq, hnx', hcase⟩ := hstart
  generalize hnmm : startName xn xv fi tn = n at *
  have hsrc := marshalAttrs_source io F S vs attrs hs.rt hty hattrs
  have hfield : ∀ (a : Attr) (i : Nat) (g : FInfo) (s : Sch) (v : Val), F[i]? = some g → S[i]? = some s →
      vs[i]? = some v → g.mode = .attr → a.name = ⟨g.xmlns, joinPrefixed g.pre g.loc⟩ →
      (s = .simple .str → v = .str a.value) → AttrGood (T' ++ X) D a := by
    intro a i g s v h1 h2 h3 hm hnm hstr
    have htg := (fieldRt_attr (hs.rt i g s h1 h2) hm).2
    obtain ⟨hspl, _, hxn⟩ := splitPrefixed_tag htg
    have hg := hfields _ (zip_get h1 h2)
    simp only [attrTag, hm, bne_self_eq_false, Bool.false_or, Bool.and_eq_true, Bool.or_eq_true, beq_iff_eq,
      bne_iff_ne] at hg
    refine ⟨by rw [hnm]; exact tag_qlocal htg, ?_⟩
    rw [hnm]
    dsimp only
    rw [hspl]
    by_cases hxe : g.xmlns = []
    · left
      refine ⟨hxe, fun hl => ?_⟩
      dsimp only at hl
      rcases hg.2 with h | h
      · rcases h with h | h
        · exact absurd hl h
        · exact absurd hxe h
      · refine ⟨h.1, ?_⟩
        have h' := h.2
        split at h'
        · have hv := hstr rfl
          subst hv
          have := canons_get hcs h1 h2 h3 (by rw [hm]; simp)
          simpa [Canon, LeafOk] using this
        · cases h'
    · right; right
      refine ⟨hxn, g.pre, ?_, Or.inl rfl⟩
      refine List.mem_append_left _ ?_
      rw [← hT']
      refine List.mem_append_right _ ?_
      unfold attrPairs
      rw [List.mem_flatMap]
      exact ⟨g, List.mem_filter.2 ⟨List.mem_of_getElem? h1, by simp [hm]⟩, by simp [tagPair, hxe]⟩
  obtain ⟨hags, hdecl⟩ := marshalAttrs_good io (P := T' ++ X) (D := D) F S vs attrs hs.rt hty hattrs
    (fun a _ i f s v h1 h2 h3 h4 h5 h6 => hfield a i f s v h1 h2 h3 h4 h5 h6)
    (fun i f l h1 hm h3 => anys_good (fun x hx => List.mem_append_right _ hx) (fun a ha => by
      obtain ⟨s, h2⟩ : ∃ s, S[i]? = some s := by
        have := hs.len
        have hi : i < S.length := by rw [← this]; exact (List.getElem?_eq_some_iff.1 h1).1
        exact ⟨S[i], List.getElem?_eq_getElem hi⟩
      have hsl := fieldRt_any (hs.rt i f s h1 h2) hm
      subst hsl
      exact canon_any (canons_get hcs h1 h2 h3 (by rw [hm]; simp)) (mem_of_attrsIn ha)) (hn2 i f l h1 hm h3))
  have hgood : ∀ a ∈ attrs, (∃ D, AttrGood (T' ++ X) D a) ∧ (a.name = ⟨[], xmlnsPrefix⟩ → n.space ≠ [] → xn = none →
      (splitPrefixed n.loc).1 = []) := by
    intro a ha
    obtain ⟨i, g, s, v, h1, h2, h3, h4⟩ := hsrc a ha
    rcases h4 with ⟨hm, hnm, hstr⟩ | ⟨hm, l, rfl, hal⟩
    · have htg := (fieldRt_attr (hs.rt i g s h1 h2) hm).2
      refine ⟨⟨D, hfield a i g s v h1 h2 h3 hm hnm hstr⟩, ?_⟩
      intro hna hne hxn'
      rw [hnm] at hna
      injection hna with _ hna
      have hj := join_xmlns htg hna
      rcases hs.xmlns with ⟨x, hx', _⟩ | h
      · rw [hxn'] at hx'; cases hx'
      · exact absurd hj.1 (h g (List.mem_of_getElem? h1) hm)
    · have hsl := fieldRt_any (hs.rt i g s h1 h2) hm
      subst hsl
      obtain ⟨c1, c2⟩ := canon_any (canons_get hcs h1 h2 h3 (by rw [hm]; simp)) hal
      obtain ⟨D', hA⟩ := anyNss_mem (hn2 i g l h1 hm h3) a (mem_attrsIn hal)
      refine ⟨⟨D', any_good (fun x hx => List.mem_append_right _ hx) c1 c2 hA⟩, ?_⟩
      intro h _ _
      rcases hA with hA | hA | ⟨_, p, hA, _⟩
      · exact (hA.2 (by rw [h])).2.2
      · have := hA.1; rw [h] at this; exact absurd this.symm xmlnsURL_ne
      · have := (hP.uri _ _ (List.mem_append_right _ hA)).1
        rw [h] at this; exact absurd rfl this
  have kids_ok : ∀ (pl : Place), pl.given = none → ∀ env', From (T' ++ X) env'.bs → (∀ x ∈ D, x ∈ env'.bs) →
      (∀ x ∈ attrs.flatMap declOf, x ∈ env'.bs) → env'.given = pl.given → KeptIn L env' kids := by
    intro pl hpg env' hb hD1 hD2 hg
    rw [hpg] at hg
    refine hk T' _ false n.space env' kids hrs hn3 hkids ⟨hb, fun x hx => ?_, fun _ => hg, Or.inl hg⟩
    rcases List.mem_append.1 hx with hx | hx
    · exact hD2 x (hdecl x hx)
    · exact hD1 x hx
  rcases hcase with ⟨h1, h2⟩ | ⟨h1, h2, h3⟩
  · have hpl := place_empty env n attrs h1 h2 hnx'
    refine kept_elem hP (table_locs hX hAL hTA) hq hpl hbs (by simp) he.decls hags
      (fun a ha => (hgood a ha).1) ?_ (kids_ok _ hgn)
    dsimp only; rw [hgn]; exact defaultsOk_none _
  · obtain ⟨pl, hpl, hb, hd, hg, hi⟩ := place_pre hP env hbs n attrs h3 hnx' (by
      intro hu
      obtain ⟨a, ha, hna, _⟩ := ownDefaults_mem hu
      have := (hgood a ha).2 hna h1 h2
      have hnc := (hP.name _ _ h3).1.1
      rw [this] at hnc
      exact absurd hnc (by decide))
    rw [hgn] at hg
    refine kept_elem hP (table_locs hX hAL hTA) hq hpl hb hd (fun x hx => hi x (he.decls x hx)) hags
      (fun a ha => (hgood a ha).1) ?_ (kids_ok _ hg)
    rw [hg]; exact defaultsOk_none _

theorem kept_concat {L : List Bytes} {env : Env} : ∀ {l : List (Except MErr (List Item))} {items : List Item},
    concatM l = .ok items → (∀ a, .ok a ∈ l → Kept L env a) → Kept L env items
  | [], items, h, _ => by
    simp only [concatM] at h
    injection h with h; subst h
    exact Kept.nil L env
  | .error e :: l, items, h, _ => by simp [concatM] at h
  | .ok a :: l, items, h, hk => by
    simp only [concatM] at h
    split at h
    · cases h
    · rename_i b hb
      injection h with h; subst h
      exact (hk a (by simp)).append (kept_concat hb fun c hc => hk c (by simp [hc]))

theorem kept_text {L : List Bytes} {env : Env} (b : Bytes) : Kept L env [.text b] ∧ Kept L env [.str b] := by
  refine ⟨⟨by simp [ItemsOk, ItemOk], [.chars (clean b)], by simp [resolves, resolve], by simp [NodeDeclsL, NodeDecls]⟩,
    ⟨by simp [ItemsOk, ItemOk], [.chars (clean b)], by simp [resolves, resolve], by simp [NodeDeclsL, NodeDecls]⟩⟩

theorem simple_kept (io : FloatIO) (A X : Pairs) (L : List Bytes) (hX : extOk A X L = true)
    (hAL : ∀ x ∈ A, x.1 ∉ L) (T D : Pairs) (fi : Option FInfo) (ns : Bytes) (k : Kind) (sc : Bool)
    (hns : (Sch.simple k).nsRt A T fi sc = true) (v : Val) (env : Env) (htag : ∀ f, fi = some f → tagOk f = true)
    (he : EnvOk (T ++ X) D sc ns env) (items : List Item)
    (hm : marshalV io ns fi (.simple k) v = .ok items) : Kept L env items := by
  cases fi with
  | none => simp [Sch.nsRt] at hns
  | some f =>
    simp only [Sch.nsRt, Bool.and_eq_true, List.all_eq_true, decide_eq_true_eq, elemTag, bne_iff_ne, beq_iff_eq] at hns
    obtain ⟨⟨⟨hx, hpe⟩, hT⟩, hTA⟩ := hns
    have hP := PairsOk.append hX hT hTA
    obtain ⟨sp, sne, sx⟩ := splitPrefixed_tag (htag f rfl)
    have hst : startName none ⟨[], []⟩ (some f) [] = ⟨f.xmlns, joinPrefixed f.pre f.loc⟩ := by
      simp [startName, sne]
    have hitems : ∃ b, items = [.elem ⟨f.xmlns, joinPrefixed f.pre f.loc⟩ [] [.str b]] := by
      simp only [marshalV, hst] at hm
      split at hm
      · cases hm
      · injection hm with hm
        exact ⟨_, hm.symm⟩
    obtain ⟨b, rfl⟩ := hitems
    have hbs : From (T ++ tagPair f ++ X) env.bs := from_mono (fun x hx => by
      rcases List.mem_append.1 hx with hx | hx
      · simp [hx]
      · exact List.mem_append_right _ hx) he.bs
    by_cases h : f.xmlns = []
    · have hp : f.pre = [] := by rw [h] at hpe; simpa using hpe.symm
      have hpl := place_empty env ⟨f.xmlns, joinPrefixed f.pre f.loc⟩ [] h (by dsimp only; rw [sp]; exact hp)
        (by dsimp only; rw [sp]; exact hx)
      exact kept_elem hP (table_locs hX hAL hTA) (tag_qlocal (htag f rfl)) hpl hbs (by simp) (D := [])
        (by simp) trivial (by simp) (by simp [defaultsOk, ownDefaults]) (fun env' _ _ _ _ => Or.inl (kept_text b).2)
    · obtain ⟨pl, hpl, hb, hd, _⟩ := place_pre hP env hbs ⟨f.xmlns, joinPrefixed f.pre f.loc⟩ [] (by
        dsimp only; rw [sp]; simp [tagPair, h]) (by dsimp only; rw [sp]; exact hx) (by simp [ownDefaults])
      exact kept_elem hP (table_locs hX hAL hTA) (tag_qlocal (htag f rfl)) hpl hb hd (D := []) (by simp)
        trivial (by simp) (by simp [defaultsOk, ownDefaults]) (fun env' _ _ _ _ => Or.inl (kept_text b).2)

theorem canons_length {io : FloatIO} : ∀ {F : List FInfo} {S : List Sch} {vs : List Val},
    Canons io F S vs → F.length = S.length ∧ S.length = vs.length
  | [], [], [], _ => ⟨rfl, rfl⟩
  | [], [], _ :: _, h => by simp [Canons] at h
  | [], _ :: _, _, h => by simp [Canons] at h
  | _ :: _, [], _, h => by simp [Canons] at h
  | _ :: _, _ :: _, [], h => by simp [Canons] at h
  | _ :: _, _ :: _, _ :: _, h => by
    simp only [Canons] at h
    have := canons_length h.2.2
    simp [this.1, this.2]

theorem canons_inner {io : FloatIO} : ∀ {F : List FInfo} {S : List Sch} {vs : List Val},
    Canons io F S vs → ∀ {i : Nat} {f : FInfo} {v : Val}, F[i]? = some f → vs[i]? = some v → f.mode = .innerxml → InnerVal v
  | [], _, _, _, _, _, _, h, _, _ => by simp at h
  | _ :: _, [], _, hc, _, _, _, _, _, _ => by simp [Canons] at hc
  | _ :: _, _ :: _, [], _, _, _, _, _, h, _ => by simp at h
  | f :: F, s :: S, v :: vs, hc, 0, _, _, h1, h2, h3 => by
    simp only [Canons] at hc
    simp only [List.getElem?_cons_zero, Option.some.injEq] at h1 h2
    subst h1; subst h2
    exact hc.2.1.2 h3
  | f :: F, s :: S, v :: vs, hc, i + 1, _, _, h1, h2, h3 => by
    simp only [Canons] at hc
    exact canons_inner hc.2.2 (by simpa using h1) (by simpa using h2) h3

mutual
theorem keptV (io : FloatIO) (A X : Pairs) (L : List Bytes) (hX : extOk A X L = true)
    (hAL : ∀ x ∈ A, x.1 ∉ L) : ∀ (s : Sch) (T D : Pairs) (fi : Option FInfo) (sc : Bool) (ns : Bytes) (v : Val) (env : Env)
    (items : List Item), s.nsRt A T fi sc = true → s.rt L = true → s.noAttr = true → Typed s v → Canon io fi s v →
    NsOk X D ns fi s v → (∀ f, fi = some f → tagOk f = true) → EnvOk (T ++ X) D sc ns env →
    marshalV io ns fi s v = .ok items → Kept L env items
  | .simple k, T, D, fi, sc, ns, v, env, items, hns, hrt, hna, ht, hc, hn, htag, he, hm =>
    simple_kept io A X L hX hAL T D fi ns k sc hns v env htag he items hm
  | .ptr s, T, D, fi, sc, ns, v, env, items, hns, hrt, hna, ht, hc, hn, htag, he, hm => by
    cases v with
    | ptr o =>
      cases o with
      | none =>
        simp only [marshalV] at hm
        injection hm with hm; subst hm
        exact Kept.nil L env
      | some v =>
        simp only [Typed] at ht
        simp only [Canon] at hc
        simp only [NsOk] at hn
        simp only [Sch.rt] at hrt
        simp only [Sch.nsRt] at hns
        simp only [Sch.noAttr] at hna
        simp only [marshalV] at hm
        exact keptV io A X L hX hAL s T D fi sc ns v env items hns hrt hna ht hc.2 hn htag he hm
    | _ => simp [Typed] at ht
  | .slice s, T, D, fi, sc, ns, v, env, items, hns, hrt, hna, ht, hc, hn, htag, he, hm => by
    cases v with
    | slice l =>
      simp only [Typed] at ht
      simp only [Canon] at hc
      simp only [NsOk] at hn
      simp only [Sch.rt] at hrt
      simp only [Sch.nsRt] at hns
      simp only [Sch.noAttr] at hna
      simp only [marshalV] at hm
      refine kept_concat hm fun a ha => ?_
      obtain ⟨v, hv, hva⟩ := List.mem_map.1 ha
      split at hva
      · injection hva with hva; subst hva
        exact Kept.nil L env
      · exact keptV io A X L hX hAL s T D fi sc ns v env a hns hrt hna (ht v hv) (hc v hv).2 (hn v hv) htag he hva
    | _ => simp [Typed] at ht
  | .struct tn xn F S, T, D, fi, sc, ns, v, env, items, hns, hrt, hna, ht, hc, hn, htag, he, hm => by
    cases v with
    | struct xv vs =>
      simp only [Typed] at ht
      simp only [Sch.rt, Bool.and_eq_true] at hrt
      have hs := StructRt.of hrt.1.1
      have hc' := hc
      simp only [Canon] at hc'
      have hk : KidsKept io A X L F S vs := fun T D sc ns env items h1 h2 h3 h4 =>
        by
          have plain : (∀ f ∈ F, f.mode ≠ .innerxml) → KeptIn L env items := fun hno =>
            Or.inl (keptF io A X L hX hAL S F vs T D sc ns env items h1 hrt.2 hs.rt ht.2 hc'.2.2 hno h2 h4 h3)
          rcases hs.inner with hno | hno
          · exact plain (modeField_none.1 hno)
          · rcases fields_inner io ns F S vs items hno hc'.2.2 hs.one h3 with h | ⟨⟨f, hf, hfm⟩, b, hb, h⟩
            · exact plain h.1
            · obtain ⟨i, hi⟩ := List.mem_iff_getElem?.1 hf
              have hlen := canons_length hc'.2.2
              obtain ⟨v, hv⟩ := get_of_lt (l := vs) (i := i) (by rw [← hlen.2, ← hlen.1]; exact lt_of_get hi)
              have := canons_inner hc'.2.2 hi hv hfm
              rw [h i f v hi hfm hv] at this
              exact Or.inr ⟨b, hb, this⟩
      cases hx : tagless xn with
      | false =>
        exact tagged_kept io A X L hX hAL T D fi ns tn xn hx F S sc hns hs xv vs env htag ht.2 hc hn he hk items hm
      | true =>
        cases xn with
        | none => simp [tagless] at hx
        | some x =>
          cases fi with
          | none => simp [Sch.nsRt, hx] at hns
          | some f =>
            exact tagless_kept io A X L hX hAL T D f ns tn x (by simpa [tagless] using hx) F S sc hns hs xv vs env
              (htag f rfl) ht.2 hc hn he hk items hm
    | _ => simp [Typed] at ht
  | .bad _, _, _, _, _, _, _, _, _, _, hrt, _, _, _, _, _, _, _ => by simp [Sch.rt] at hrt
  | .name, _, _, _, _, _, _, _, _, _, hrt, _, _, _, _, _, _, _ => by simp [Sch.rt] at hrt
  | .attr, _, _, _, _, _, _, _, _, _, _, hna, _, _, _, _, _, _ => by simp [Sch.noAttr] at hna
theorem keptF (io : FloatIO) (A X : Pairs) (L : List Bytes) (hX : extOk A X L = true)
    (hAL : ∀ x ∈ A, x.1 ∉ L) : ∀ (S : List Sch) (F : List FInfo) (vs : List Val) (T D : Pairs) (sc : Bool) (ns : Bytes)
    (env : Env) (items : List Item), nsRts A T sc F S = true → rts L S = true →
    (∀ (i : Nat) (fi : FInfo) (s : Sch), F[i]? = some fi → S[i]? = some s → fieldRt fi s = true) → Typeds S vs →
    Canons io F S vs → (∀ f ∈ F, f.mode ≠ .innerxml) → NsOks X D ns F S vs → EnvOk (T ++ X) D sc ns env →
    marshalFields io ns F S vs = .ok items → Kept L env items
  | [], F, vs, T, D, sc, ns, env, items, _, _, _, _, _, _, _, _, hm => by
    have : items = [] := by
      cases F <;> cases vs <;> simp only [marshalFields] at hm <;> injection hm with hm <;> exact hm.symm
    subst this
    exact Kept.nil L env
  | s :: S, [], vs, T, D, sc, ns, env, items, _, _, _, _, _, _, _, _, hm => by
    simp only [marshalFields] at hm
    injection hm with hm; subst hm
    exact Kept.nil L env
  | s :: S, fi :: F, [], T, D, sc, ns, env, items, _, _, _, _, _, _, _, _, hm => by
    simp only [marshalFields] at hm
    injection hm with hm; subst hm
    exact Kept.nil L env
  | s :: S, fi :: F, v :: vs, T, D, sc, ns, env, items, hns, hrt, hfr, ht, hc, hin, hn, he, hm => by
    simp only [Typeds] at ht
    simp only [Canons] at hc
    simp only [NsOks] at hn
    simp only [rts, Bool.and_eq_true] at hrt
    simp only [nsRts, Bool.and_eq_true, Bool.or_eq_true, bne_iff_ne] at hns
    have hty : Typed s v := by
      rcases ht.1 with h | h
      · rw [hc.1] at h; cases h
      · exact h
    have hfi := hfr 0 fi s rfl rfl
    simp only [marshalFields] at hm
    split at hm
    · cases hm
    rename_i a ha
    split at hm
    · cases hm
    rename_i b hb
    injection hm with hm; subst hm
    refine Kept.append ?_ (keptF io A X L hX hAL S F vs T D sc ns env b hns.2 hrt.2
      (fun i fi s h1 h2 => hfr (i + 1) fi s h1 h2) ht.2 hc.2.2 (fun f hf => hin f (by simp [hf])) hn.2 he hb)
    unfold fieldItems at ha
    split at ha
    · injection ha with ha; subst ha
      exact Kept.nil L env
    rename_i hmode
    split at ha
    · rename_i hch
      injection ha with ha; subst ha
      have := fieldRt_chars hfi hch
      subst this
      cases v <;> simp [Typed, KindOk] at hty
      simp only [charText, marshalSimple]
      exact (kept_text _).1
    rename_i hch
    split at ha
    · rename_i hix
      exact absurd hix (hin fi (by simp))
    rename_i hix
    split at ha
    · injection ha with ha; subst ha
      exact Kept.nil L env
    · have hel : fi.mode = .elem := by
        cases h : fi.mode <;> simp_all
      obtain ⟨e1, e2⟩ := fieldRt_elem hfi hel
      refine keptV io A X L hX hAL s T D (some fi) sc ns v env a ?_ hrt.1 (elemShape_noAttr e1) hty (hc.2.1.1 hix) hn.1
        (by intro f hf; injection hf with hf; subst hf; exact e2) he ha
      rcases hns.1 with h | h
      · exact absurd hel h
      · exact h
end

/-! ### Values that satisfy `Canon` have no nil embedded pointers -/

mutual
theorem canon_whole {io : FloatIO} : ∀ (s : Sch) (fi : Option FInfo) (v : Val), Canon io fi s v →
    Whole s v
  | .ptr s, fi, v, h => by
    cases v with
    | ptr o =>
      cases o with
      | none => simp [Whole]
      | some v =>
        simp only [Canon] at h
        simp only [Whole]
        exact canon_whole s fi v h.2
    | _ => simp [Whole]
  | .slice s, fi, v, h => by
    cases v with
    | slice l =>
      simp only [Canon] at h
      simp only [Whole]
      exact fun v hv => canon_whole s fi v (h v hv).2
    | _ => simp [Whole]
  | .struct tn xn F S, fi, v, h => by
    cases v with
    | struct xv vs =>
      simp only [Canon] at h
      simp only [Whole]
      exact canons_wholes S F vs h.2.2
    | _ => simp [Whole]
  | .simple k, fi, v, _ => by simp [Whole]
  | .bad _, fi, v, _ => by simp [Whole]
  | .name, fi, v, _ => by simp [Whole]
  | .attr, fi, v, _ => by simp [Whole]
theorem canons_wholes {io : FloatIO} : ∀ (S : List Sch) (F : List FInfo) (vs : List Val),
    Canons io F S vs → Wholes S vs
  | [], _, _, _ => by simp [Wholes]
  | _ :: _, _, [], _ => by simp [Wholes]
  | s :: S, [], v :: vs, h => by simp [Canons] at h
  | s :: S, f :: F, v :: vs, h => by
    simp only [Canons] at h
    simp only [Wholes]
    refine ⟨h.1, ?_, canons_wholes S F vs h.2.2⟩
    by_cases hm : f.mode = .innerxml
    · have := h.2.1.2 hm
      cases v <;> simp only [InnerVal] at this
      unfold Whole
      split <;> trivial
    · exact canon_whole s (some f) v (h.2.1.1 hm)
end

end Verif.Bind
