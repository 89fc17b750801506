import Verif.XmlResolve

/-!
C29: the decoder reads from the printer's output exactly the information content of the tree: every element and attribute
with the namespace and local name it was given.
-/
namespace Verif.Xml

/-! ### Placing an element -/

/-- What the printer's state, the open elements of a reader, and the environment have to do with each other. -/
structure EnvInv (els : List Elem) (os : List Open) (env : Env) : Prop where
  tab : Tab els env.bs
  def1 : ∀ e ∈ els, e.pre = [] → e.xmlns ≠ [] → env.given = some e.xmlns
  def2 : ∀ w, env.given = some w → w ≠ [] ∧ ∃ e ∈ els, e.pre = [] ∧ e.xmlns = w
  giv : ∀ w, env.given = some w → env.dflt = w
  bnd : ∀ b ∈ env.bs, bound os b.1 = some b.2
  dfl : (bound os []).getD [] = env.dflt
  exa : ∀ p u, p ≠ [] → bound os p = some u → (p, u) ∈ env.bs

theorem ownDefault_iff (attrs : List Attr) (u : Bytes) : ownDefault attrs u = true ↔ u ∈ ownDefaults attrs := by
  unfold ownDefault ownDefaults
  rw [List.any_eq_true, List.mem_filterMap]
  constructor
  · rintro ⟨a, ha, h⟩
    simp at h
    refine ⟨a, ha, ?_⟩
    rw [if_pos, h.2]
    obtain ⟨⟨s, l⟩, v⟩ := a
    simp at h ⊢
    exact h.1
  · rintro ⟨a, ha, h⟩
    refine ⟨a, ha, ?_⟩
    split at h
    · rename_i hn
      injection h with h
      rw [hn, h]
      simp
    · cases h

theorem ancestorDefault_iff {els : List Elem} {os : List Open} {env : Env} (hi : EnvInv els os env) (u : Bytes) (hu : u ≠ []) :
    ancestorDefault els u = true ↔ env.given = some u := by
  unfold ancestorDefault
  rw [List.any_eq_true]
  constructor
  · rintro ⟨e, he, h⟩
    simp at h
    rw [← h.2]
    exact hi.def1 e he h.1 (by rw [h.2]; exact hu)
  · intro h
    obtain ⟨_, e, he, h1, h2⟩ := hi.def2 u h
    exact ⟨e, he, by simp [h1, h2]⟩

/-- What placing an element gives. -/
structure Placing (els : List Elem) (env : Env) (n : Name) (attrs : List Attr) (pl : Place) (ns : Ns) (tas : List TagAttr) :
    Prop where
  top : ∃ e, ns.els = e :: els ∧ e.pre = pl.pre ∧ e.xmlns = n.space ∧ e.name = (splitPrefixed n.loc).2
  tab : Tab ns.els pl.bs
  list : SList pl.decls tas
  sub : env.bs ⊆ pl.bs
  new : ∀ b ∈ pl.bs, b ∈ env.bs ∨ declAttr b.1 b.2 ∈ pl.decls ∨
    ∃ a ∈ attrs, a.name.space = xmlnsURL ∧ a.name.loc ≠ [] ∧ a.name.loc = b.1 ∧ a.value = b.2
  good : ∀ s ∈ pl.decls, SGood pl.bs s
  giv : pl.given = env.given ∨
    (pl.given = some n.space ∧ n.space ≠ [] ∧ pl.pre = [] ∧ (env.given = none ∨ env.given = some n.space))
  unp : pl.pre = [] → n.space ≠ [] → pl.given = some n.space ∧
    (n.space ∈ ownDefaults attrs ∨ sDefaults pl.decls = [n.space] ∨ env.given = some n.space)
  prf : pl.pre ≠ [] → (pl.pre, n.space) ∈ pl.bs ∧ sDefaults pl.decls = []
  nos : n.space = [] → pl.pre = [] ∧ sDefaults pl.decls = []
  own : (splitPrefixed n.loc).1 ≠ [] → pl.pre = (splitPrefixed n.loc).1
  dfs : sDefaults pl.decls = [] ∨ (sDefaults pl.decls = [n.space] ∧ pl.pre = [] ∧ n.space ≠ [])
  nox : (splitPrefixed n.loc).2 ≠ xmlnsPrefix

theorem tab_push {els : List Elem} {bs : List (Bytes × Bytes)} (h : Tab els bs) (e : Elem) (h1 : e.nsToPrefix = [])
    (h2 : e.prefixToNS = []) : Tab (e :: els) bs := by
  refine ⟨?_, ?_, h.one⟩
  · rw [List.flatMap_cons, h2, List.nil_append, h.all]
  · intro f hf
    rcases List.mem_cons.1 hf with rfl | hf
    · rw [h1, h2]; rfl
    · exact h.inv f hf

theorem tab_setPre {ns : Ns} {bs : List (Bytes × Bytes)} (h : Tab ns.els bs) (p : Bytes) : Tab (setPre ns p).els bs := by
  unfold setPre
  split
  · exact h
  · rename_i e els he
    rw [he] at h
    refine ⟨?_, ?_, h.one⟩
    · have := h.all
      rw [List.flatMap_cons] at this ⊢
      exact this
    · intro f hf
      rcases List.mem_cons.1 hf with rfl | hf
      · exact h.inv e (by simp)
      · exact h.inv f (by simp [hf])

theorem setPre_top {ns : Ns} {e : Elem} {els : List Elem} (h : SameTop (e :: els) ns.els) (p : Bytes) :
    ∃ e', (setPre ns p).els = e' :: els ∧ e'.pre = p ∧ e'.xmlns = e.xmlns ∧ e'.name = e.name := by
  obtain ⟨f, fs, f', h1, h2, _, h4, h5⟩ := h
  injection h1 with h1 h1'
  subst h1; subst h1'
  unfold setPre
  rw [h2]
  exact ⟨_, rfl, rfl, h5, h4⟩

theorem topPre_of {ns : Ns} {e : Elem} {els : List Elem} (h : ns.els = e :: els) : topPre ns = e.pre := by
  unfold topPre; rw [h]

theorem nameTag_new (ns : Ns) (xmlns name : Bytes) (h1 : topPre ns ≠ []) (h2 : xmlns ≠ []) :
    nameTag ns false xmlns name = (setPre (createPrefix ns xmlns (topPre ns)).1 (createPrefix ns xmlns (topPre ns)).2.1,
      (createPrefix ns xmlns (topPre ns)).2.1 ++ ch%':' :: name,
      if (createPrefix ns xmlns (topPre ns)).2.2 then [⟨xmlnsName (createPrefix ns xmlns (topPre ns)).2.1, xmlns⟩] else []) := by
  unfold nameTag
  rw [if_pos h1, if_pos ⟨h2, rfl⟩]

theorem nameTag_old (ns : Ns) (xmlns name : Bytes) (h1 : topPre ns ≠ []) :
    nameTag ns true xmlns name = (ns, topPre ns ++ ch%':' :: name, []) := by
  unfold nameTag
  rw [if_pos h1, if_neg (by simp)]

theorem place_spec {els : List Elem} {os : List Open} {env : Env} (seq : Nat) {n : Name} {attrs : List Attr} {pl : Place}
    (hi : EnvInv els os env) (h : placeSpec env n attrs = some pl) :
    Placing els env n attrs pl
      (nameTag (placeElement seq els (newElement n) attrs).1 (placeElement seq els (newElement n) attrs).2 n.space
        (splitPrefixed n.loc).2).1
      (nameTag (placeElement seq els (newElement n) attrs).1 (placeElement seq els (newElement n) attrs).2 n.space
        (splitPrefixed n.loc).2).2.2 := by
  have htab := tab_push hi.tab (newElement n) rfl rfl
  have hpush : Tab (⟨seq, newElement n :: els⟩ : Ns).els env.bs := htab
  unfold placeSpec at h
  dsimp only at h
  split at h
  · cases h
  rename_i hnx
  split at h
  · -- no namespace
    rename_i hs
    split at h
    · rename_i hp
      injection h with h
      subst h
      have hpl : placeElement seq els (newElement n) attrs = (⟨seq, newElement n :: els⟩, false) := by
        unfold placeElement; rw [if_pos (show (newElement n).xmlns = [] from hs)]
      have htop : topPre (⟨seq, newElement n :: els⟩ : Ns) = [] := hp
      rw [hpl]
      unfold nameTag
      dsimp only
      rw [if_neg (by rw [htop]; simp), if_neg (by simp [hs])]
      refine ⟨⟨newElement n, rfl, hp, rfl, rfl⟩, htab, .nil, fun x hx => hx, fun b hb => Or.inl hb, by simp, Or.inl rfl,
        fun _ hx => absurd hs hx, fun hx => absurd rfl hx, fun _ => ⟨rfl, rfl⟩, fun hx => absurd hp hx, Or.inl rfl, hnx⟩
    · cases h
  rename_i hs
  have hs' : (newElement n).xmlns ≠ [] := hs
  split at h
  · cases h
  rename_i hu
  simp only [not_or, Classical.not_not] at hu
  split at h
  · -- own default
    rename_i hod
    split at h
    · rename_i hc
      injection h with h
      subst h
      have hpl : placeElement seq els (newElement n) attrs = (⟨seq, newElement n :: els⟩, true) := by
        unfold placeElement
        rw [if_neg hs', if_pos (show ownDefault attrs (newElement n).xmlns = true from (ownDefault_iff attrs n.space).2 hod)]
      have htop : topPre (⟨seq, newElement n :: els⟩ : Ns) = [] := hc.1
      rw [hpl]
      unfold nameTag
      dsimp only
      rw [if_neg (by rw [htop]; simp), if_pos hs]
      refine ⟨⟨newElement n, rfl, hc.1, rfl, rfl⟩, htab, .nil, fun x hx => hx, fun b hb => Or.inl hb, by simp,
        Or.inr ⟨rfl, hs, rfl, hc.2⟩, fun _ _ => ⟨rfl, Or.inl hod⟩, fun hx => absurd rfl hx, fun hx => absurd hx hs,
        fun hx => absurd hc.1 hx, Or.inl rfl, hnx⟩
    · cases h
  rename_i hod
  have hod' : ¬ ownDefault attrs (newElement n).xmlns = true := fun hh => hod ((ownDefault_iff attrs n.space).1 hh)
  split at h
  · -- own prefix
    rename_i hp
    have hpl : placeElement seq els (newElement n) attrs = (⟨seq, newElement n :: els⟩, false) := by
      unfold placeElement
      rw [if_neg hs', if_neg hod', if_pos (show (newElement n).pre ≠ [] from hp)]
    have htop : topPre (⟨seq, newElement n :: els⟩ : Ns) = (splitPrefixed n.loc).1 := rfl
    rw [hpl]
    cases hu' : useNs env.bs n.space (splitPrefixed n.loc).1 with
    | none => rw [hu'] at h; cases h
    | some r =>
      obtain ⟨bs', q, new⟩ := r
      rw [hu'] at h
      simp only [Place.ofUse, Bool.and_true] at h
      injection h with h
      subst h
      obtain ⟨t1, t2, t3, t4, t5⟩ := createPrefix_spec (ns := ⟨seq, newElement n :: els⟩) (by simp) hpush hu'
      have hq := t5 hp
      have hmem : (q, n.space) ∈ bs' := by
        rcases t4 with ⟨h1, _⟩ | h1
        · exact absurd h1 hu.1
        · exact h1
      have hqne : q ≠ [] := by rw [hq]; exact hp
      rw [nameTag_new _ _ _ (by rw [htop]; exact hp) hs]
      dsimp only
      rw [htop]
      have t2a : (createPrefix ⟨seq, newElement n :: els⟩ n.space (splitPrefixed n.loc).1).2.1 = q := by rw [t2]
      have t2b : (createPrefix ⟨seq, newElement n :: els⟩ n.space (splitPrefixed n.loc).1).2.2 = new := by rw [t2]
      rw [t2a, t2b]
      obtain ⟨e', s1, s2, s3, s4⟩ := setPre_top (createPrefix_same ⟨seq, newElement n :: els⟩ (by simp) n.space (splitPrefixed n.loc).1) q
      have hdf : sDefaults (if new = true then [declAttr q n.space] else []) = [] := by
        split
        · rw [sDefaults_decl]; rfl
        · rfl
      refine ⟨⟨e', s1, s2, s3, s4⟩, tab_setPre t1 q, ?_, use_sub t3, ?_, ?_, Or.inl rfl, fun hx => absurd hx hqne,
        fun _ => ⟨hmem, hdf⟩, fun hx => absurd hx hs, fun _ => hq, Or.inl hdf, hnx⟩
      · cases new with
        | false => exact .nil
        | true => exact .cons ⟨written_xmlns (t1.one.pre _ hmem).1, rfl⟩ .nil
      · intro b hb
        rcases t3 with ⟨_, t3, _⟩ | ⟨tn, t3⟩
        · dsimp only at hb; rw [t3] at hb; exact Or.inl hb
        · dsimp only at hb; rw [t3] at hb
          rcases List.mem_cons.1 hb with rfl | hb
          · exact Or.inr (Or.inl (by simp [tn]))
          · exact Or.inl hb
      · intro s hs'
        dsimp only at hs'
        split at hs'
        · simp at hs'; subst hs'; exact Or.inr (Or.inl ⟨rfl, rfl, hmem⟩)
        · simp at hs'
  rename_i hp
  have hp : (splitPrefixed n.loc).1 = [] := Classical.not_not.1 hp
  have hp' : ¬ (newElement n).pre ≠ [] := fun hx => hx hp
  split at h
  · -- inherited default
    rename_i hg
    injection h with h
    subst h
    have hpl : placeElement seq els (newElement n) attrs = (⟨seq, newElement n :: els⟩, true) := by
      unfold placeElement
      rw [if_neg hs', if_neg hod', if_neg hp', if_pos (show ancestorDefault els (newElement n).xmlns = true from (ancestorDefault_iff hi n.space hs).2 hg)]
    have htop : topPre (⟨seq, newElement n :: els⟩ : Ns) = [] := hp
    rw [hpl]
    unfold nameTag
    dsimp only
    rw [if_neg (by rw [htop]; simp), if_pos hs]
    refine ⟨⟨newElement n, rfl, hp, rfl, rfl⟩, htab, .nil, fun x hx => hx, fun b hb => Or.inl hb, by simp,
      Or.inl rfl, fun _ _ => ⟨hg, Or.inr (Or.inr hg)⟩, fun hx => absurd rfl hx, fun hx => absurd hx hs,
      fun hx => absurd hp hx, Or.inl rfl, hnx⟩
  rename_i hg
  have hanc : ¬ ancestorDefault els (newElement n).xmlns = true := fun hh => hg ((ancestorDefault_iff hi n.space hs).1 hh)
  split at h
  · -- own declaration of a prefix
    rename_i a ha
    cases hu' : useNs env.bs n.space a.name.loc with
    | none => rw [hu'] at h; cases h
    | some r =>
      obtain ⟨bs', q, new⟩ := r
      rw [hu'] at h
      simp only [Place.ofUse, Bool.and_false] at h
      injection h with h
      rw [if_neg (by decide)] at h
      subst h
      have hmem_a := List.mem_of_find?_eq_some ha
      have hpa := List.find?_some ha
      simp at hpa
      have hav : a.value = n.space := hpa.2
      have hal : a.name.loc ≠ [] := hpa.1.2
      obtain ⟨t1, t2, t3, t4, t5⟩ := createPrefix_spec (ns := ⟨seq, newElement n :: els⟩) (by simp) hpush hu'
      have hq := t5 hal
      have hmem : (q, n.space) ∈ bs' := by
        rcases t4 with ⟨h1, _⟩ | h1
        · exact absurd h1 hu.1
        · exact h1
      have hqne : q ≠ [] := by rw [hq]; exact hal
      have t2a : (createPrefix ⟨seq, newElement n :: els⟩ n.space a.name.loc).2.1 = q := by rw [t2]
      have hpl : placeElement seq els (newElement n) attrs =
          (setPre (createPrefix ⟨seq, newElement n :: els⟩ n.space a.name.loc).1 q, true) := by
        unfold placeElement
        rw [if_neg hs', if_neg hod', if_neg hp', if_neg hanc]
        have : ownPrefix attrs (newElement n).xmlns = some a := ha
        rw [this]
        dsimp only
        rw [hav, t2a]
      rw [hpl]
      obtain ⟨e', s1, s2, s3, s4⟩ := setPre_top (createPrefix_same ⟨seq, newElement n :: els⟩ (by simp) n.space a.name.loc) q
      rw [nameTag_old _ _ _ (by rw [topPre_of s1, s2]; exact hqne)]
      refine ⟨⟨e', s1, s2, s3, s4⟩, tab_setPre t1 q, .nil, use_sub t3, ?_, by simp, Or.inl rfl, fun hx => absurd hx hqne,
        fun _ => ⟨hmem, rfl⟩, fun hx => absurd hx hs, fun hx => absurd hp hx, Or.inl rfl, hnx⟩
      intro b hb
      rcases t3 with ⟨_, t3, _⟩ | ⟨tn, t3⟩
      · dsimp only at hb; rw [t3] at hb; exact Or.inl hb
      · dsimp only at hb; rw [t3] at hb
        rcases List.mem_cons.1 hb with rfl | hb
        · exact Or.inr (Or.inr ⟨a, hmem_a, hpa.1.1, hal, hq.symm, hav⟩)
        · exact Or.inl hb
  rename_i hop
  have hgp := getPrefix_eq htab n.space hu.1 hu.2.1
  have hpl : placeElement seq els (newElement n) attrs =
      (⟨seq, { newElement n with pre := (preOf env.bs n.space).getD [] } :: els⟩, (preOf env.bs n.space).getD [] != []) := by
    unfold placeElement
    rw [if_neg hs', if_neg hod', if_neg hp', if_neg hanc]
    have : ownPrefix attrs (newElement n).xmlns = none := hop
    rw [this]
    dsimp only
    rw [show (newElement n).xmlns = n.space from rfl, hgp]
  rw [hpl]
  split at h
  · -- inherited prefix
    rename_i p hpo
    injection h with h
    subst h
    have hmem := preOf_mem hpo
    have hpne := isName_ne (hi.tab.one.pre _ hmem).1.1
    dsimp only at hpne
    rw [hpo, Option.getD_some]
    rw [show (p != []) = true by simpa using hpne, nameTag_old ⟨seq, { newElement n with pre := p } :: els⟩ _ _ hpne]
    refine ⟨⟨_, rfl, rfl, rfl, rfl⟩, tab_push hi.tab _ rfl rfl, .nil, fun x hx => hx, fun b hb => Or.inl hb, by simp, Or.inl rfl,
      fun hx => absurd hx hpne, fun _ => ⟨hmem, rfl⟩, fun hx => absurd hx hs, fun hx => absurd hp hx, Or.inl rfl, hnx⟩
  · rename_i hpo
    split at h
    · rename_i hgn
      injection h with h
      subst h
      rw [hpo, Option.getD_none]
      unfold nameTag
      rw [if_neg (show ¬ topPre _ ≠ [] from fun hx => hx rfl), if_pos hs]
      refine ⟨⟨_, rfl, rfl, rfl, rfl⟩, tab_push hi.tab _ rfl rfl, ?_, fun x hx => hx, fun b hb => Or.inl hb, ?_,
        Or.inr ⟨rfl, hs, rfl, Or.inl hgn⟩, fun _ _ => ⟨rfl, Or.inr (Or.inl ?_)⟩, fun hx => absurd rfl hx, fun hx => absurd hx hs,
        fun hx => absurd hp hx, Or.inr ⟨?_, rfl, hs⟩, hnx⟩
      · exact .cons ⟨written_nc nc_xmlns, rfl⟩ .nil
      · intro s hs'
        simp at hs'
        subst hs'
        exact Or.inl ⟨rfl, rfl, fun _ => hu.2.2⟩
      · simp [sDefaults]
      · simp [sDefaults]
    · cases h

/-! ### Declarations of a tag -/

theorem attrSpec_decl {bs bs' : List (Bytes × Bytes)} {a : Attr} {ss : List SAttr} (ho : OneToOne bs)
    (hx : a.name.space = xmlnsURL) (hl : a.name.loc ≠ []) (h : attrSpec bs a = some (bs', ss)) :
    declAttr a.name.loc a.value ∈ ss := by
  unfold attrSpec at h
  rw [if_neg hl] at h
  dsimp only at h
  rw [if_pos hx] at h
  split at h
  · cases h
  · split at h
    · cases h
    · rename_i bs1 p new hu
      injection h with h; injection h with _ h2
      subst h2
      have ht : Tab [⟨[], [], [], bs.map (fun b => (b.2, b.1)), bs⟩] bs := ⟨by simp, by simp, ho⟩
      have := (createPrefix_spec (ns := ⟨0, [⟨[], [], [], bs.map (fun b => (b.2, b.1)), bs⟩]⟩) (by simp) ht hu).2.2.2.2 hl
      rw [this]
      simp

theorem attrsSpec_decl (attrs : List Attr) {bs bs' : List (Bytes × Bytes)} {ss : List SAttr} (ho : OneToOne bs)
    (hok : ∀ a ∈ attrs, AttrOk a) (h : attrsSpec bs attrs = some (bs', ss)) (a : Attr) (ha : a ∈ attrs)
    (hx : a.name.space = xmlnsURL) (hl : a.name.loc ≠ []) : declAttr a.name.loc a.value ∈ ss := by
  induction attrs generalizing bs bs' ss with
  | nil => simp at ha
  | cons b l ih =>
    simp only [attrsSpec] at h
    split at h
    · cases h
    · rename_i bs1 s1 h1
      split at h
      · cases h
      · rename_i bs2 s2 h2
        injection h with h; injection h with _ h4
        subst h4
        rcases List.mem_cons.1 ha with rfl | ha
        · exact List.mem_append_left _ (attrSpec_decl ho hx hl h1)
        · exact List.mem_append_right _ (ih (attrSpec_one ho (hok b (by simp)) h1) (fun x hx => hok x (by simp [hx])) h2 ha)

/-- The declarations among attributes as written. -/
def declsOf (ss : List SAttr) : List (Bytes × Bytes) := (ss.map SAttr.raw).filterMap declOf

theorem sgood_decl {bs : List (Bytes × Bytes)} (ho : OneToOne bs) {s : SAttr} (h : SGood bs s) :
    (s.pre = xmlnsPrefix ∧ declOf s.raw = some (s.loc, s.value) ∧ (s.loc, s.value) ∈ bs) ∨
    (s.pre = [] ∧ s.loc = xmlnsPrefix ∧ declOf s.raw = some ([], s.value)) ∨
    (declOf s.raw = none ∧ s.pre ≠ xmlnsPrefix ∧ ¬ (s.pre = [] ∧ s.loc = xmlnsPrefix)) := by
  have hxp : xmlnsPrefix = b!"xmlns" := rfl
  rcases h with ⟨h1, h2, h3⟩ | ⟨h1, h2, h3⟩ | ⟨h1, h2⟩ | h1
  · by_cases hl : s.loc = xmlnsPrefix
    · refine Or.inr (Or.inl ⟨h1, hl, ?_⟩)
      unfold declOf SAttr.raw
      dsimp only
      rw [h1, hl, h3 hl, if_neg (by decide), if_pos (by rw [hxp])]
    · refine Or.inr (Or.inr ⟨?_, by rw [h1]; decide, fun hh => hl hh.2⟩)
      unfold declOf SAttr.raw
      dsimp only
      rw [h1, if_neg (by decide), if_neg]
      intro hh
      injection hh with _ hh
      exact hl hh
  · refine Or.inl ⟨h1, ?_, h3⟩
    unfold declOf SAttr.raw
    dsimp only
    have := (ho.uri _ h3).2.2.2
    dsimp only at this
    rw [h1, this, if_pos hxp]
  · refine Or.inr (Or.inr ⟨?_, by rw [h1]; decide, by rw [h1]; simp [xmlPrefix]⟩)
    unfold declOf SAttr.raw
    dsimp only
    rw [h1, if_neg (by decide), if_neg (by simp [xmlPrefix])]
  · have hp := ho.pre _ h1
    dsimp only at hp
    have hne : s.pre ≠ xmlnsPrefix := by
      intro hh
      rw [hh, startsXml_xmlns] at hp
      exact absurd hp.2 (by decide)
    have hnil : s.pre ≠ [] := isName_ne hp.1.1
    refine Or.inr (Or.inr ⟨?_, hne, fun hh => hnil hh.1⟩)
    unfold declOf SAttr.raw
    dsimp only
    rw [if_neg (by rw [← hxp]; exact hne), if_neg (by intro hh; injection hh with hh _; exact hnil hh)]

theorem declsOf_mem {bs : List (Bytes × Bytes)} (ho : OneToOne bs) {ss : List SAttr} (hg : ∀ s ∈ ss, SGood bs s) :
    (∀ d ∈ declsOf ss, d ∈ bs ∨ d.1 = []) ∧ (∀ b ∈ bs, declAttr b.1 b.2 ∈ ss → b ∈ declsOf ss) ∧
      ((declsOf ss).filter (fun d => d.1 = [])).map (·.2) = sDefaults ss := by
  refine ⟨?_, ?_, ?_⟩
  · intro d hd
    unfold declsOf at hd
    obtain ⟨a, ha, hda⟩ := List.mem_filterMap.1 hd
    obtain ⟨s, hs, rfl⟩ := List.mem_map.1 ha
    rcases sgood_decl ho (hg s hs) with ⟨_, h2, h3⟩ | ⟨_, _, h2⟩ | ⟨h2, _⟩
    · rw [h2] at hda; injection hda with hda; subst hda; exact Or.inl h3
    · rw [h2] at hda; injection hda with hda; subst hda; exact Or.inr rfl
    · rw [h2] at hda; cases hda
  · intro b hb hm
    unfold declsOf
    refine List.mem_filterMap.2 ⟨(declAttr b.1 b.2).raw, List.mem_map.2 ⟨_, hm, rfl⟩, ?_⟩
    rcases sgood_decl ho (hg _ hm) with ⟨_, h2, _⟩ | ⟨h1, _⟩ | ⟨_, h1, _⟩
    · rw [h2]; rfl
    · simp [declAttr, xmlnsPrefix] at h1
    · exact absurd rfl h1
  · unfold declsOf sDefaults
    induction ss with
    | nil => rfl
    | cons s ss ih =>
      have ih := ih (fun x hx => hg x (by simp [hx]))
      rw [List.map_cons, List.filterMap_cons, List.filterMap_cons]
      rcases sgood_decl ho (hg s (by simp)) with ⟨h1, h2, h3⟩ | ⟨h1, h1', h2⟩ | ⟨h2, h3, h4⟩
      · rw [h2, if_neg (by rw [h1]; simp [xmlnsPrefix])]
        dsimp only
        have : s.loc ≠ [] := isName_ne (ho.pre _ h3).1.1
        rw [List.filter_cons, if_neg (by simpa using this)]
        exact ih
      · rw [h2, if_pos ⟨h1, h1'⟩]
        dsimp only
        rw [List.filter_cons, if_pos (by simp), List.map_cons, ih]
      · rw [h2, if_neg h4]
        exact ih

theorem find_reverse_eq {α} (p : α → Bool) (l : List α) : l.reverse.find? p = (l.filter p).getLast? := by
  rw [← List.head?_filter, List.filter_reverse, List.head?_reverse]

theorem bound_cons (nm : Name) (ds : List (Bytes × Bytes)) (os : List Open) (p : Bytes) :
    bound (⟨nm, ds⟩ :: os) p = match ds.reverse.find? (fun d => d.1 = p) with
      | some d => some d.2
      | none => bound os p := by
  simp only [bound]
  rfl

/-- The bindings in scope inside an element. -/
theorem bound_tag {bs bs' : List (Bytes × Bytes)} (ho : OneToOne bs') {ss : List SAttr} (hg : ∀ s ∈ ss, SGood bs' s)
    (hnew : ∀ b ∈ bs', b ∈ bs ∨ declAttr b.1 b.2 ∈ ss) (os : List Open) (hos : ∀ b ∈ bs, bound os b.1 = some b.2) (nm : Name) :
    (∀ b ∈ bs', bound (⟨nm, declsOf ss⟩ :: os) b.1 = some b.2) ∧
      bound (⟨nm, declsOf ss⟩ :: os) [] = match (sDefaults ss).getLast? with
        | some v => some v
        | none => bound os [] := by
  obtain ⟨h1, h2, h3⟩ := declsOf_mem ho hg
  refine ⟨?_, ?_⟩
  · intro b hb
    rw [bound_cons]
    cases hf : (declsOf ss).reverse.find? (fun d => d.1 = b.1) with
    | some d =>
      dsimp only
      have hm := List.mem_of_find?_eq_some hf
      have hp := List.find?_some hf
      simp at hp
      rcases h1 d (List.mem_reverse.1 hm) with hd | hd
      · obtain ⟨b1, b2⟩ := b
        obtain ⟨d1, d2⟩ := d
        dsimp only at hp
        subst hp
        rw [ho.key hd hb]
      · rw [hp] at hd
        exact absurd hd (isName_ne (ho.pre b hb).1.1)
    | none =>
      dsimp only
      rw [List.find?_eq_none] at hf
      rcases hnew b hb with hb' | hb'
      · exact hos b hb'
      · have := hf b (List.mem_reverse.2 (h2 b hb hb'))
        simp at this
  · rw [bound_cons, find_reverse_eq, ← h3, List.getLast?_map]
    cases ((declsOf ss).filter (fun d => d.1 = [])).getLast? <;> rfl

/-- No other bindings are in scope. -/
theorem bound_exact {bs bs' : List (Bytes × Bytes)} (ho : OneToOne bs') {ss : List SAttr} (hg : ∀ s ∈ ss, SGood bs' s)
    (hsub : bs ⊆ bs') (os : List Open) (hos : ∀ p u, p ≠ [] → bound os p = some u → (p, u) ∈ bs) (nm : Name) :
    ∀ p u, p ≠ [] → bound (⟨nm, declsOf ss⟩ :: os) p = some u → (p, u) ∈ bs' := by
  obtain ⟨h1, _, _⟩ := declsOf_mem ho hg
  intro p u hp hb
  rw [bound_cons] at hb
  cases hf : (declsOf ss).reverse.find? (fun d => d.1 = p) with
  | some d =>
    rw [hf] at hb
    injection hb with hb
    have hm := List.mem_of_find?_eq_some hf
    have hp' := List.find?_some hf
    simp at hp'
    obtain ⟨d1, d2⟩ := d
    dsimp only at hb hp'
    subst hb; subst hp'
    rcases h1 _ (List.mem_reverse.1 hm) with hd | hd
    · exact hd
    · exact absurd hd hp
  | none =>
    rw [hf] at hb
    exact hsub (hos p u hp hb)

/-! ### Content written as it is -/

/-- The same prefixes stand for the same namespaces. -/
def SameScope (os os' : List Open) : Prop := ∀ p, (bound os p).getD p = (bound os' p).getD p

theorem sameScope_cons {os os' : List Open} (h : SameScope os os') (o : Open) : SameScope (o :: os) (o :: os') := by
  intro p
  obtain ⟨nm, ds⟩ := o
  rw [bound_cons, bound_cons]
  split
  · rfl
  · exact h p

theorem sameScope_append {os os' : List Open} (h : SameScope os os') : ∀ pre : List Open, SameScope (pre ++ os) (pre ++ os')
  | [] => h
  | o :: pre => sameScope_cons (sameScope_append h pre) o

theorem resolvePrefix_same {os os' : List Open} (h : SameScope os os') (p : Bytes) : resolvePrefix os p = resolvePrefix os' p := by
  unfold resolvePrefix
  rw [h p]

/-- Content that does not close what it did not open means the same wherever the same declarations are in scope. -/
theorem specRun_same {os os' : List Open} (h : SameScope os os') (ts : List Token) : ∀ (pre pre' : List Open) (ts' : List Token),
    specRun pre ts = some (ts', pre') → ∃ ts'', specRun (pre ++ os) ts = some (ts'', pre' ++ os) ∧
      specRun (pre ++ os') ts = some (ts'', pre' ++ os') := by
  induction ts with
  | nil =>
    intro pre pre' ts' hr
    injection hr with hr; injection hr with h1 h2
    subst h2
    exact ⟨[], rfl, rfl⟩
  | cons t ts ih =>
    intro pre pre' ts' hr
    have hre : ∀ (pre : List Open) (n : Name), resolveElement (pre ++ os) n = resolveElement (pre ++ os') n := by
      intro pre n
      unfold resolveElement
      rw [resolvePrefix_same (sameScope_append h pre)]
    have hra : ∀ (pre : List Open) (n : Name), resolveAttr (pre ++ os) n = resolveAttr (pre ++ os') n := by
      intro pre n
      unfold resolveAttr
      rw [resolvePrefix_same (sameScope_append h pre)]
    have step : ∀ (pre1 : List Open) (t1 : Token), specToken pre t = some (t1, pre1) →
        ∃ t2, specToken (pre ++ os) t = some (t2, pre1 ++ os) ∧ specToken (pre ++ os') t = some (t2, pre1 ++ os') := by
      intro pre1 t1 ht
      cases t with
      | startElement n as =>
        simp only [specToken] at ht ⊢
        split at ht
        · cases ht
        · rename_i hb
          injection ht with ht; injection ht with _ ht
          subst ht
          rw [if_neg hb, if_neg hb]
          refine ⟨_, rfl, ?_⟩
          rw [← List.cons_append, ← List.cons_append, hre]
          simp only [hra]
      | endElement n =>
        cases pre with
        | nil => simp [specToken] at ht
        | cons o pre =>
          simp only [specToken, List.cons_append] at ht ⊢
          split at ht
          · rename_i hn
            injection ht with ht; injection ht with _ ht
            subst ht
            rw [if_pos hn, if_pos hn]
            refine ⟨_, rfl, ?_⟩
            have := hre (o :: pre) n
            simp only [List.cons_append] at this
            rw [this]
          · cases ht
      | charData b => injection ht with ht; injection ht with _ ht; subst ht; exact ⟨_, rfl, rfl⟩
      | comment b => injection ht with ht; injection ht with _ ht; subst ht; exact ⟨_, rfl, rfl⟩
      | procInst a b => injection ht with ht; injection ht with _ ht; subst ht; exact ⟨_, rfl, rfl⟩
      | directive b => injection ht with ht; injection ht with _ ht; subst ht; exact ⟨_, rfl, rfl⟩
    simp only [specRun] at hr ⊢
    split at hr
    · cases hr
    · rename_i t1 pre1 ht
      split at hr
      · cases hr
      · rename_i ts1 pre2 hrun
        injection hr with hr; injection hr with _ hr
        subst hr
        obtain ⟨t2, e1, e2⟩ := step pre1 t1 ht
        obtain ⟨ts2, e3, e4⟩ := ih pre1 _ _ hrun
        refine ⟨t2 :: ts2, ?_, ?_⟩
        · rw [e1]; dsimp only; rw [e3]
        · rw [e2]; dsimp only; rw [e4]

theorem env_scope {els : List Elem} {os : List Open} {env : Env} (hi : EnvInv els os env) : SameScope os env.opens := by
  intro p
  unfold Env.opens
  rw [bound_cons]
  by_cases hp : p = []
  · subst hp
    rw [hi.dfl]
    rw [find_reverse_eq, List.filter_cons, if_pos (by simp)]
    have : env.bs.filter (fun d => decide (d.1 = [])) = [] := by
      rw [List.filter_eq_nil_iff]
      intro b hb
      simpa using isName_ne (hi.tab.one.pre b hb).1.1
    rw [this]
    rfl
  · cases hb : bound os p with
    | some u =>
      have hm := hi.exa p u hp hb
      cases hf : (([], env.dflt) :: env.bs : List (Bytes × Bytes)).reverse.find? (fun d => d.1 = p) with
      | none =>
        rw [List.find?_eq_none] at hf
        have := hf (p, u) (by simp [hm])
        simp at this
      | some d =>
        have hm' := List.mem_of_find?_eq_some hf
        have hp' := List.find?_some hf
        simp at hp'
        obtain ⟨d1, d2⟩ := d
        dsimp only at hp'
        subst hp'
        rcases List.mem_cons.1 (List.mem_reverse.1 hm') with hd | hd
        · injection hd with hd _; exact absurd hd hp
        · rw [hi.tab.one.key hd hm]
    | none =>
      cases hf : (([], env.dflt) :: env.bs : List (Bytes × Bytes)).reverse.find? (fun d => d.1 = p) with
      | none => rfl
      | some d =>
        have hm' := List.mem_of_find?_eq_some hf
        have hp' := List.find?_some hf
        simp at hp'
        obtain ⟨d1, d2⟩ := d
        dsimp only at hp'
        subst hp'
        rcases List.mem_cons.1 (List.mem_reverse.1 hm') with hd | hd
        · injection hd with hd _; exact absurd hd hp
        · have := hi.bnd _ hd
          rw [hb] at this
          cases this

/-- The tokens of the content are those found with the declarations of the environment. -/
theorem chunk_env {els : List Elem} {os : List Open} {env : Env} (hi : EnvInv els os env) {b : Bytes} (hb : Chunk b)
    {ts : List Token} {os' : List Open} (h : specRun env.opens (chunkToks b) = some (ts, os')) :
    specRun os (chunkToks b) = some (ts, os) := by
  obtain ⟨ts0, h0⟩ := (chunk_whole hb).spec []
  obtain ⟨ts1, h1, h2⟩ := specRun_same (env_scope hi) (chunkToks b) [] [] ts0 h0
  simp only [List.nil_append] at h1 h2
  rw [h] at h2
  injection h2 with h2; injection h2 with h2 _
  subst h2
  exact h1

/-! ### A start tag -/

theorem resolvePrefix_nil (os : List Open) : resolvePrefix os [] = (bound os []).getD [] := by
  unfold resolvePrefix
  rw [if_neg (by decide), if_neg (by decide)]

theorem resolvePrefix_bound {os : List Open} {p u : Bytes} (hx : startsXml p = false) (h : bound os p = some u) :
    resolvePrefix os p = u := by
  unfold resolvePrefix
  rw [if_neg, if_neg, h]
  · rfl
  · rintro rfl; exact absurd hx (by decide)
  · rintro rfl; exact absurd hx (by decide)

theorem sgood_resolve {bs : List (Bytes × Bytes)} (ho : OneToOne bs) {os : List Open} (hos : ∀ b ∈ bs, bound os b.1 = some b.2)
    {s : SAttr} (h : SGood bs s) : (⟨resolveAttr os s.raw.name, s.raw.value⟩ : Attr) = s.res := by
  unfold SAttr.raw SAttr.res resolveAttr
  dsimp only
  rcases h with ⟨h1, h2, _⟩ | ⟨h1, h2, _⟩ | ⟨h1, h2⟩ | h1
  · rw [if_pos h1, h1, h2]
  · rw [h1, h2, if_neg (by decide)]
    unfold resolvePrefix
    rw [if_pos (show xmlnsPrefix = b!"xmlns" from rfl)]
    rfl
  · rw [h1, h2, if_neg (by decide)]
    unfold resolvePrefix
    rw [if_neg (by decide), if_pos (show xmlPrefix = b!"xml" from rfl)]
    rfl
  · have hp := ho.pre _ h1
    dsimp only at hp
    rw [if_neg (isName_ne hp.1.1), resolvePrefix_bound hp.2 (hos _ h1)]

/-- What the start tag of an element gives. -/
structure Started (els : List Elem) (os : List Open) (env : Env) (n : Name) (attrs : List Attr) (pl : Place)
    (bs : List (Bytes × Bytes)) (as : List SAttr) (ns' : Ns) (q : Bytes) (tas : List TagAttr) : Prop where
  top : ∃ e, ns'.els = e :: els ∧ e.pre = pl.pre ∧ e.xmlns = n.space ∧ e.name = (splitPrefixed n.loc).2
  nm : WrittenName q ⟨pl.pre, (splitPrefixed n.loc).2⟩
  raw : tas.map attrOf = (pl.decls ++ as).map SAttr.raw
  inv : EnvInv ns'.els (⟨⟨pl.pre, (splitPrefixed n.loc).2⟩, declsOf (pl.decls ++ as)⟩ :: os)
    ⟨bs, pl.given, dfltIn env n attrs pl.pre⟩
  elem : resolveElement (⟨⟨pl.pre, (splitPrefixed n.loc).2⟩, declsOf (pl.decls ++ as)⟩ :: os) ⟨pl.pre, (splitPrefixed n.loc).2⟩ =
    ⟨if n.space = [] then dfltIn env n attrs pl.pre else n.space, (splitPrefixed n.loc).2⟩
  attr : (tas.map attrOf).map (fun a => (⟨resolveAttr (⟨⟨pl.pre, (splitPrefixed n.loc).2⟩, declsOf (pl.decls ++ as)⟩ :: os) a.name, a.value⟩ : Attr)) =
    (pl.decls ++ as).map SAttr.res
  bad : ∀ a ∈ tas.map attrOf, ¬ BadDecl a
  own : (splitPrefixed n.loc).1 ≠ [] → pl.pre = (splitPrefixed n.loc).1

theorem start_spec {ns : Ns} {os : List Open} {env : Env} {n : Name} {attrs : List Attr} {pl : Place}
    {bs : List (Bytes × Bytes)} {as : List SAttr} (hi : EnvInv ns.els os env) (hn : QLocal n.loc) (ha : ∀ a ∈ attrs, AttrOk a)
    (h1 : placeSpec env n attrs = some pl) (h2 : attrsSpec pl.bs attrs = some (bs, as)) (h3 : defaultsOk pl.given attrs = true) :
    ∃ ns' q tas, nsStart ns n attrs = .ok (ns', q, tas) ∧ Started ns.els os env n attrs pl bs as ns' q tas := by
  have hstart : nsStart ns n attrs = .ok
      ((writeAttrs (nameTag (placeElement ns.seq ns.els (newElement n) attrs).1 (placeElement ns.seq ns.els (newElement n) attrs).2
          n.space (splitPrefixed n.loc).2).1 attrs).1,
        (nameTag (placeElement ns.seq ns.els (newElement n) attrs).1 (placeElement ns.seq ns.els (newElement n) attrs).2
          n.space (splitPrefixed n.loc).2).2.1,
        (nameTag (placeElement ns.seq ns.els (newElement n) attrs).1 (placeElement ns.seq ns.els (newElement n) attrs).2
          n.space (splitPrefixed n.loc).2).2.2 ++
        (writeAttrs (nameTag (placeElement ns.seq ns.els (newElement n) attrs).1 (placeElement ns.seq ns.els (newElement n) attrs).2
          n.space (splitPrefixed n.loc).2).1 attrs).2) := by
    unfold nsStart
    rw [if_neg (qlocal_ne hn)]
    rfl
  have hst := nsStart_tag _ _ _ _ _ _ (tab_pfx hi.tab) hn ha hstart
  have hp := place_spec ns.seq hi h1
  generalize nameTag (placeElement ns.seq ns.els (newElement n) attrs).1 (placeElement ns.seq ns.els (newElement n) attrs).2
          n.space (splitPrefixed n.loc).2 = nt at hstart hst hp
  obtain ⟨e, e1, e2, e3, e4⟩ := hp.top
  have hd := writeAttrs_spec attrs (ns := nt.1) (by rw [e1]; simp) hp.tab ha h2
  generalize writeAttrs nt.1 attrs = wa at hstart hst hd
  refine ⟨_, _, _, hstart, ?_⟩
  obtain ⟨f, fs, f', g1, g2, g3, g4, g5⟩ := hd.same
  rw [e1] at g1
  injection g1 with g1 g1'
  subst g1; subst g1'
  have htop : wa.1.els = f' :: ns.els ∧ f'.pre = pl.pre ∧ f'.xmlns = n.space ∧ f'.name = (splitPrefixed n.loc).2 :=
    ⟨g2, g3.trans e2, g5.trans e3, g4.trans e4⟩
  have hlist := hp.list.append hd.list
  have hgood : ∀ s ∈ pl.decls ++ as, SGood bs s := by
    intro s hs
    rcases List.mem_append.1 hs with hs | hs
    · exact (hp.good s hs).mono hd.sub
    · exact hd.good s hs
  have hnew : ∀ b ∈ bs, b ∈ env.bs ∨ declAttr b.1 b.2 ∈ pl.decls ++ as := by
    intro b hb
    rcases hd.new b hb with h | h
    · rcases hp.new b h with h | h | ⟨a, ha1, ha2, ha3, ha4, ha5⟩
      · exact Or.inl h
      · exact Or.inr (by simp [h])
      · have := attrsSpec_decl attrs hp.tab.one ha h2 a ha1 ha2 ha3
        rw [ha4, ha5] at this
        exact Or.inr (by simp [this])
    · exact Or.inr (by simp [h])
  obtain ⟨hb1, hb2⟩ := bound_tag hd.tab.one hgood hnew os hi.bnd ⟨pl.pre, (splitPrefixed n.loc).2⟩
  have hdefs : sDefaults (pl.decls ++ as) = sDefaults pl.decls ++ ownDefaults attrs := by
    rw [sDefaults_append, attrsSpec_defaults attrs hp.tab.one ha h2]
  have hdflt : (bound (⟨⟨pl.pre, (splitPrefixed n.loc).2⟩, declsOf (pl.decls ++ as)⟩ :: os) []).getD [] =
      dfltIn env n attrs pl.pre := by
    rw [hb2, hdefs]
    unfold dfltIn
    cases hol : (ownDefaults attrs).getLast? with
    | some v =>
      have : (sDefaults pl.decls ++ ownDefaults attrs).getLast? = some v := by
        rw [List.getLast?_append, hol]; rfl
      rw [this]; rfl
    | none =>
      have hnil : ownDefaults attrs = [] := List.getLast?_eq_none_iff.1 hol
      rw [hnil, List.append_nil]
      rcases hp.dfs with hdf | ⟨hdf, hpe, hse⟩
      · rw [hdf]
        dsimp only [List.getLast?_nil]
        rw [hi.dfl]
        split
        · rename_i hc
          rcases (hp.unp hc.1 hc.2).2 with h | h | h
          · rw [hnil] at h; simp at h
          · rw [hdf] at h; simp at h
          · exact hi.giv _ h
        · rfl
      · rw [hdf, if_pos ⟨hpe, hse⟩]
        rfl
  have hgiv : ∀ w, pl.given = some w → dfltIn env n attrs pl.pre = w := by
    intro w hw
    unfold dfltIn
    cases hol : (ownDefaults attrs).getLast? with
    | some v =>
      have hm := List.mem_of_getLast? hol
      unfold defaultsOk at h3
      have := List.all_eq_true.1 h3 v hm
      rw [hw] at this
      simp at this
      exact this.symm
    | none =>
      dsimp only
      split
      · rename_i hc
        have := (hp.unp hc.1 hc.2).1
        rw [hw] at this
        injection this with this
        exact this.symm
      · rename_i hc
        rcases hp.giv with h | ⟨_, h4, h5, _⟩
        · exact hi.giv w (by rw [← h, hw])
        · exact absurd ⟨h5, h4⟩ hc
  have hwn : WrittenName nt.2.1 ⟨pl.pre, (splitPrefixed n.loc).2⟩ := by
    obtain ⟨e', k1, k2, k3, k4, k5⟩ := hst.ex
    rw [htop.1] at k1
    injection k1 with k1 _
    subst k1
    rw [k5, htop.2.1, htop.2.2.2]
    rw [htop.2.1] at k4
    exact join_written k4 (splitPrefixed_q hn).1
  refine ⟨⟨f', htop⟩, hwn, hlist.raw, ?_, ?_, ?_, ?_, hp.own⟩
  · refine ⟨hd.tab, ?_, ?_, hgiv, hb1, hdflt, bound_exact hd.tab.one hgood (fun b hb => hd.sub (hp.sub hb)) os hi.exa _⟩
    · intro x hx hx1 hx2
      rw [htop.1] at hx
      rcases List.mem_cons.1 hx with rfl | hx
      · rw [htop.2.2.1] at hx2 ⊢
        rw [htop.2.1] at hx1
        exact (hp.unp hx1 hx2).1
      · have hg := hi.def1 x hx hx1 hx2
        rcases hp.giv with h | ⟨h4, _, _, h5⟩
        · dsimp only; rw [h, hg]
        · rw [hg] at h5
          rcases h5 with h5 | h5
          · cases h5
          · dsimp only; rw [h4, ← h5]
    · intro w hw
      dsimp only at hw
      rcases hp.giv with h | ⟨h4, h5, h6, _⟩
      · rw [h] at hw
        obtain ⟨a1, x, hx, a2, a3⟩ := hi.def2 w hw
        exact ⟨a1, x, by rw [htop.1]; simp [hx], a2, a3⟩
      · rw [h4] at hw
        injection hw with hw
        subst hw
        exact ⟨h5, f', by rw [htop.1]; simp, by rw [htop.2.1]; exact h6, htop.2.2.1⟩
  · unfold resolveElement
    rw [if_neg (by intro hh; injection hh with _ hh; exact hp.nox hh)]
    congr 1
    dsimp only
    by_cases hpe : pl.pre = []
    · have hr : resolvePrefix (⟨⟨pl.pre, (splitPrefixed n.loc).2⟩, declsOf (pl.decls ++ as)⟩ :: os) pl.pre =
          dfltIn env n attrs pl.pre := by
        have h9 := resolvePrefix_nil (⟨⟨pl.pre, (splitPrefixed n.loc).2⟩, declsOf (pl.decls ++ as)⟩ :: os)
        rw [hdflt] at h9
        exact (congrArg (resolvePrefix _) hpe).trans h9
      rw [hr]
      split
      · rfl
      · rename_i hs
        exact hgiv _ (hp.unp hpe hs).1
    · have hm := (hp.prf hpe).1
      have hm' := hd.sub hm
      rw [resolvePrefix_bound (hd.tab.one.pre _ hm').2 (hb1 _ hm'), if_neg]
      intro hs
      exact hpe (hp.nos hs).1
  · rw [hlist.raw, List.map_map]
    apply List.map_congr_left
    intro s hs
    exact sgood_resolve hd.tab.one hb1 (hgood s hs)
  · intro a ha'
    obtain ⟨t, ht, rfl⟩ := List.mem_map.1 ha'
    exact (hst.ok t ht).2

/-! ### Trees -/

/-- What printing does. -/
structure Wrote (p : Printer) (os : List Open) (p' : Printer) (o : List Out) (r : Ind × List Lin) : Prop where
  els : p'.ns.els = p.ns.els
  ind : p'.ind = r.1
  lex : ∀ acc, (lexL acc o).2 = (mergeL acc r.2).2 ∧ specRun os (lexL acc o).1 = some ((mergeL acc r.2).1, os)
  marks : ∀ acc, marksO acc o = marksL acc r.2

/-- What printing the content of an element does. -/
structure WroteIn (p : Printer) (os : List Open) (p' : Printer) (o : List Out) (r : Ind × List Lin) : Prop where
  els : p'.ns.els = p.ns.els
  ind : p'.ind = r.1
  lex1 : (lexL [] o).2 = (mergeL [] r.2).2
  lex2 : specRun os (lexL [] o).1 = some ((mergeL [] r.2).1, os)
  marks : marksO [] o = marksL [] r.2

theorem nsEnd_spec {ns : Ns} {n : Name} {e : Elem} {els : List Elem} (hn : QLocal n.loc) (h : ns.els = e :: els)
    (h1 : (splitPrefixed n.loc).1 ≠ [] → e.pre = (splitPrefixed n.loc).1) (h2 : e.xmlns = n.space)
    (h3 : e.name = (splitPrefixed n.loc).2) : nsEnd ns n = .ok ({ ns with els := els }, joinPrefixed e.pre e.name) := by
  unfold nsEnd
  rw [if_neg (qlocal_ne hn), h]
  dsimp only
  rw [if_neg (by rw [h3]; exact isName_ne (splitPrefixed_q hn).1.1), if_neg (by rintro ⟨a, b, c⟩; exact c (h1 a).symm),
    if_neg (by simp [h3]), if_neg (by simp [h2])]

mutual
theorem encItem_wrote (i : Item) (p : Printer) (os : List Open) (env : Env) (x : Node) (hi : EnvInv p.ns.els os env)
    (hok : ItemOk i) (h : resolve env i = some x) :
    ∃ p' o, encItem p i = .ok (p', o) ∧ Wrote p os p' o (linear p.ind x) := by
  cases i with
  | text b =>
    injection h with h; subst h
    exact ⟨_, _, rfl, rfl, rfl, fun acc => ⟨rfl, rfl⟩, fun acc => rfl⟩
  | str b =>
    injection h with h; subst h
    exact ⟨_, _, rfl, rfl, rfl, fun acc => ⟨rfl, rfl⟩, fun acc => rfl⟩
  | raw b => exact absurd hok (by simp [ItemOk])
  | elem n attrs kids =>
    unfold ItemOk at hok
    obtain ⟨hn, ha, hk⟩ := hok
    unfold resolve at h
    split at h
    · cases h
    rename_i pl h1
    split at h
    · cases h
    rename_i bs as h2
    split at h
    · cases h
    rename_i h3
    dsimp only at h
    obtain ⟨ns1, q, tas, hst, hs⟩ := start_spec hi hn ha h1 h2 (by simpa using h3)
    obtain ⟨L, p2, o2, he2, hw2, hx⟩ : ∃ L p2 o2, encItems ⟨ns1, (writeIndent p.ind 1).1⟩ kids = .ok (p2, o2) ∧
        WroteIn ⟨ns1, (writeIndent p.ind 1).1⟩ (⟨⟨pl.pre, (splitPrefixed n.loc).2⟩, declsOf (pl.decls ++ as)⟩ :: os) p2 o2 L ∧
        linear p.ind x = ((writeIndent L.1 (-1)).1, .chars (writeIndent p.ind 1).2 ::
          .tok (.startElement ⟨if n.space = [] then dfltIn env n attrs pl.pre else n.space, (splitPrefixed n.loc).2⟩
            ((pl.decls ++ as).map SAttr.res)) :: (L.2 ++ [.chars (writeIndent L.1 (-1)).2,
          .tok (.endElement ⟨if n.space = [] then dfltIn env n attrs pl.pre else n.space, (splitPrefixed n.loc).2⟩)])) := by
      cases hrk : rawKid kids with
      | some b =>
        rw [hrk] at h
        dsimp only at h
        split at h
        · cases h
        rename_i ts os' hts
        injection h with h
        subst h
        have hkk := rawKid_some hrk
        subst hkk
        have hb : Chunk b := by
          rcases hk with ⟨b', hb1, hb2⟩ | hk
          · injection hb1 with hb1 _; injection hb1 with hb1; rw [hb1]; exact hb2
          · simp [ItemsOk, ItemOk] at hk
        refine ⟨((writeIndent p.ind 1).1, [.inner b ts]), _, _, rfl, ?_, ?_⟩
        · have hsp := chunk_env hs.inv hb hts
          have hlen := specRun_length _ _ _ _ hsp
          refine ⟨rfl, rfl, rfl, ?_, ?_⟩
          · simpa [lexL, mergeL, flush] using hsp
          · simp [marksO, marksL, flushM, hlen]
        · simp [linear, linears]
      | none =>
        rw [hrk] at h
        dsimp only at h
        split at h
        · cases h
        rename_i ks h4
        injection h with h
        subst h
        have hk : ItemsOk kids := by
          rcases hk with ⟨b, rfl, _⟩ | hk
          · cases hrk
          · exact hk
        obtain ⟨p2, o2, he2, hw2⟩ := encItems_wrote kids ⟨ns1, (writeIndent p.ind 1).1⟩ _ _ ks hs.inv hk h4
        exact ⟨_, p2, o2, he2, ⟨hw2.els, hw2.ind, (hw2.lex []).1, (hw2.lex []).2, hw2.marks []⟩, by simp only [linear]⟩
    obtain ⟨e, e1, e2, e3, e4⟩ := hs.top
    have hels : p2.ns.els = e :: p.ns.els := by rw [hw2.els]; exact e1
    have hend := nsEnd_spec hn hels (fun hx => by rw [e2]; exact hs.own hx) e3 e4
    have hq : joinPrefixed e.pre e.name = q := by
      have h5 := hs.nm
      have h6 : q = joinPrefixed pl.pre (splitPrefixed n.loc).2 := by
        obtain ⟨e', k1, k2, k3, k4, k5⟩ := (nsStart_tag _ _ _ _ _ _ (tab_pfx hi.tab) hn ha hst).ex
        rw [e1] at k1
        injection k1 with k1 _
        rw [k5, ← k1, e2, e4]
      rw [h6, e2, e4]
    have hi2 := hw2.ind
    rw [hx, ← hi2]
    refine ⟨⟨{ p2.ns with els := p.ns.els }, (writeIndent p2.ind (-1)).1⟩,
      [.raw (writeIndent p.ind 1).2, .start q tas] ++ o2 ++ [.raw (writeIndent p2.ind (-1)).2, .stop q], ?_, rfl, rfl, ?_, ?_⟩
    · unfold encItem writeStart
      rw [hst]
      dsimp only
      rw [he2]
      dsimp only
      unfold writeEnd
      rw [hend]
      dsimp only
      rw [hq]
    · intro acc
      obtain ⟨m1, m2⟩ := And.intro hw2.lex1 hw2.lex2
      have hlex : lexL acc ([Out.raw (writeIndent p.ind 1).2, .start q tas] ++ o2 ++ [.raw (writeIndent p2.ind (-1)).2, .stop q]) =
          (flush (acc ++ (writeIndent p.ind 1).2) ++ .startElement (nameOf q) (tas.map attrOf) ::
            ((lexL [] o2).1 ++ (flush ((lexL [] o2).2 ++ (writeIndent p2.ind (-1)).2) ++ [.endElement (nameOf q)])), []) := by
        rw [List.append_assoc, lexL_append, lexL_append]
        simp [lexL]
      rw [hlex]
      dsimp only
      simp only [mergeL, mergeL_append]
      refine ⟨trivial, ?_⟩
      refine specRun_append os os os _ _ _ _ (specRun_flush os _) ?_
      have hnq := written_nameOf hs.nm
      simp only [specRun, specToken]
      rw [if_neg (by rintro ⟨a, ha', hba⟩; exact hs.bad a ha' hba)]
      dsimp only
      have hopen : (⟨nameOf q, (tas.map attrOf).filterMap declOf⟩ : Open) =
          ⟨⟨pl.pre, (splitPrefixed n.loc).2⟩, declsOf (pl.decls ++ as)⟩ := by
        rw [hnq, hs.raw]; rfl
      rw [hopen, hnq, hs.elem, hs.attr]
      have hend' : specRun (⟨⟨pl.pre, (splitPrefixed n.loc).2⟩, declsOf (pl.decls ++ as)⟩ :: os)
          [.endElement ⟨pl.pre, (splitPrefixed n.loc).2⟩] =
          some ([.endElement ⟨if n.space = [] then dfltIn env n attrs pl.pre else n.space, (splitPrefixed n.loc).2⟩], os) := by
        simp only [specRun, specToken]
        rw [if_pos trivial, hs.elem]
      rw [m1] at *
      have := specRun_append _ _ _ _ _ _ _ m2 (specRun_append _ _ _ _ _ _ _ (specRun_flush _
        ((mergeL [] L.2).2 ++ (writeIndent p2.ind (-1)).2)) hend')
      rw [this]
    · intro acc
      rw [List.append_assoc, marksO_append, marksO_append]
      dsimp only
      simp only [marksL, marksL_append, marksO, lexL, List.nil_append, List.append_assoc, List.cons_append]
      rw [hw2.marks, hw2.lex1]
theorem encItems_wrote (l : List Item) (p : Printer) (os : List Open) (env : Env) (xs : List Node) (hi : EnvInv p.ns.els os env)
    (hok : ItemsOk l) (h : resolves env l = some xs) :
    ∃ p' o, encItems p l = .ok (p', o) ∧ Wrote p os p' o (linears p.ind xs) := by
  cases l with
  | nil =>
    injection h with h; subst h
    exact ⟨p, [], rfl, rfl, rfl, fun acc => ⟨rfl, rfl⟩, fun acc => rfl⟩
  | cons i l =>
    unfold ItemsOk at hok
    unfold resolves at h
    split at h
    · cases h
    rename_i x h1
    split at h
    · cases h
    rename_i xs h2
    injection h with h
    subst h
    obtain ⟨p1, o1, he1, hw1⟩ := encItem_wrote i p os env x hi hok.1 h1
    obtain ⟨p2, o2, he2, hw2⟩ := encItems_wrote l p1 os env xs (by rw [hw1.els]; exact hi) hok.2 h2
    refine ⟨p2, o1 ++ o2, ?_, hw2.els.trans hw1.els, ?_, ?_, ?_⟩
    · unfold encItems
      rw [he1]
      dsimp only
      rw [he2]
    · unfold linears
      rw [hw2.ind, hw1.ind]
    · intro acc
      unfold linears
      dsimp only
      obtain ⟨a1, a2⟩ := hw1.lex acc
      obtain ⟨b1, b2⟩ := hw2.lex (lexL acc o1).2
      rw [hw1.ind] at b1 b2
      rw [lexL_append, mergeL_append, ← a1]
      exact ⟨b1, specRun_append _ _ _ _ _ _ _ a2 b2⟩
    · intro acc
      unfold linears
      dsimp only
      rw [marksO_append, marksL_append, hw1.marks, (hw1.lex acc).1, hw2.marks, hw1.ind]
end

/-- The environment outside of all elements. -/
def Env.empty : Env := ⟨[], none, []⟩

theorem envInv_empty : EnvInv [] [] Env.empty :=
  { tab := ⟨rfl, by simp, ⟨List.nodup_nil, List.nodup_nil, by simp [Env.empty], by simp [Env.empty]⟩⟩
    def1 := by simp
    def2 := fun w hw => by simp [Env.empty] at hw
    giv := fun w hw => by simp [Env.empty] at hw
    bnd := by simp [Env.empty]
    dfl := rfl
    exa := fun p u _ h => by simp [bound] at h }

/-! ### Positions -/

/-- The input left before each of the next raw tokens. -/
def rests : Nat → Raw → List Bytes
  | 0, _ => []
  | k + 1, st =>
    match rawToken st with
    | .error _ => []
    | .ok (_, st') => st.rest :: rests k st'

/-- The first position. -/
def startB (bs : List Bytes) : Bytes := bs.head?.getD []

/-- Between the marked positions are the bytes of the marks. -/
def Marked : List Bytes → Marks → Prop
  | _, [] => True
  | bs, none :: ms => Marked bs.tail ms
  | bs, some (b, k) :: ms => startB bs = b ++ startB (bs.drop k) ∧ Marked bs ms

theorem marked_drop (n : Nat) (bs : List Bytes) (ms : Marks) : Marked bs (List.replicate n none ++ ms) ↔ Marked (bs.drop n) ms := by
  induction n generalizing bs with
  | zero => simp
  | succ n ih =>
    rw [List.replicate_succ, List.cons_append]
    simp only [Marked]
    rw [ih, List.drop_tail]

theorem flushM_eq (acc : Bytes) : flushM acc = List.replicate (flush acc).length none := by
  unfold flushM flush
  split <;> rfl

theorem rests_steps {st st' : Raw} {ts : List Token} (h : RawSteps st ts st') (m : Nat) :
    (rests (ts.length + m) st).drop ts.length = rests m st' := by
  induction h with
  | nil => simp
  | cons st st1 st2 t ts h1 _ ih =>
    rw [List.length_cons, show ts.length + 1 + m = (ts.length + m) + 1 by omega]
    simp only [rests, h1, List.drop_succ_cons]
    exact ih

theorem startB_steps {st st' : Raw} {ts : List Token} (h : RawSteps st ts st') (hne : ts ≠ []) (m : Nat) :
    startB (rests (ts.length + m) st) = st.rest := by
  cases h with
  | nil => exact absurd rfl hne
  | cons _ st1 _ t ts h1 h2 =>
    rw [List.length_cons, show ts.length + 1 + m = (ts.length + m) + 1 by omega]
    simp [rests, h1, startB]

theorem steps_ne {st st' : Raw} {ts : List Token} (h : RawSteps st ts st') (hne : st ≠ st') : ts ≠ [] := by
  cases h with
  | nil => exact absurd rfl hne
  | cons => simp

/-- Content written as it is stands where it is marked. -/
theorem marks_outs (l : List Out) (hl : ∀ o ∈ l, OutOk o) (w d : Bytes) (h : Pending w d) (hc : Chain d l) :
    Marked (rests (lexOuts d l).length ⟨w ++ outBytes l, none⟩) (marksO d l) := by
  induction l generalizing w d with
  | nil => trivial
  | cons o l ih =>
    have ho := hl o (by simp)
    have hl' : ∀ o ∈ l, OutOk o := fun x hx => hl x (by simp [hx])
    have hb : outBytes (o :: l) = o.bytes ++ outBytes l := by
      unfold outBytes; rw [List.flatMap_cons]
    rw [hb]
    have tag : ∀ (t : Token), (∃ r, o.bytes ++ outBytes l = ch%'<' :: r) →
        rawToken ⟨o.bytes ++ outBytes l, none⟩ = .ok (t, ⟨outBytes l, none⟩) → Chain [] l →
        Marked (rests (flush d ++ t :: lexOuts [] l).length ⟨w ++ (o.bytes ++ outBytes l), none⟩)
          (flushM d ++ none :: marksO [] l) := by
      rintro t ⟨r, hr⟩ ht hc'
      have hst : RawSteps ⟨w ++ (o.bytes ++ outBytes l), none⟩ (flush d ++ [t]) ⟨outBytes l, none⟩ :=
        rawSteps_flush h _ (Or.inr ⟨r, hr⟩) _ _ (.cons _ _ _ _ _ ht (.nil _))
      have h1 : flushM d ++ none :: marksO [] l = List.replicate (flush d ++ [t]).length none ++ marksO [] l := by
        rw [flushM_eq, List.length_append, List.length_singleton, List.replicate_succ']
        simp
      have h2 : (flush d ++ t :: lexOuts [] l).length = (flush d ++ [t]).length + (lexOuts [] l).length := by
        simp only [List.length_append, List.length_cons, List.length_nil]; omega
      rw [h1, h2, marked_drop, rests_steps hst]
      exact ih hl' [] [] pending_nil hc'
    cases o with
    | start q as => exact tag _ ⟨_, rfl⟩ (rawToken_start q as ho _) hc
    | stop q => exact tag _ ⟨_, rfl⟩ (rawToken_stop q ho _) hc
    | text b =>
      simp only [lexOuts, Out.bytes, marksO]
      rw [← List.append_assoc]
      exact ih hl' _ _ (pending_append h (pending_text false b)) hc
    | str b =>
      simp only [lexOuts, Out.bytes, marksO]
      rw [← List.append_assoc]
      exact ih hl' _ _ (pending_append h (pending_str b)) hc
    | raw b =>
      simp only [lexOuts, Out.bytes, marksO]
      rw [← List.append_assoc]
      exact ih hl' _ _ (pending_append h (pending_raw ho)) hc
    | inner b =>
      obtain ⟨rfl, ⟨x, hx⟩, hc⟩ := hc
      have hw := h.empty.1 rfl
      subst hw
      simp only [lexOuts, Out.bytes, marksO, flush, flushM, if_pos, List.nil_append, List.cons_append, List.length_append]
      have hi := ih hl' [] [] pending_nil hc
      have h1 := lex_outs l hl' [] [] pending_nil hc [] (Or.inl rfl)
      simp only [List.nil_append, List.append_nil] at hi h1
      have hc' := ho.steps x
      rw [← hx] at hc'
      have h2 := rawSteps_append hc' h1
      have hn1 : lexOuts [] l ≠ [] := steps_ne h1 (by rw [hx]; simp)
      have hn2 : chunkToks b ++ lexOuts [] l ≠ [] := by simp [hn1]
      simp only [Marked]
      rw [marked_drop, rests_steps hc']
      refine ⟨?_, hi⟩
      have e1 := startB_steps h2 hn2 0
      have e2 := startB_steps h1 hn1 0
      rw [List.length_append, Nat.add_zero] at e1
      rw [Nat.add_zero] at e2
      rw [e1, e2]

/-- What is printed for a tree: the tokens the decoder reads, and where content written as it is stands. -/
theorem names_marks (pre indent : Bytes) (hpre : IsWs pre) (hind : IsWs indent) (n : Name) (attrs : List Attr)
    (kids : List Item) (hok : ItemOk (.elem n attrs kids)) (x : Node) (h : resolve Env.empty (.elem n attrs kids) = some x) :
    ∃ doc, encode pre indent [.elem n attrs kids] = .ok doc ∧
      (∀ k, (nodeTokens pre indent x).length < k → tokRun k (Dec.new doc) = (nodeTokens pre indent x, some .eof)) ∧
      Marked (rests (nodeTokens pre indent x).length ⟨doc, none⟩) (marksL [] (linear (Printer.new pre indent).ind x).2) := by
  obtain ⟨p', o, he, hw⟩ := encItems_wrote [.elem n attrs kids] (Printer.new pre indent) [] Env.empty [x] envInv_empty
    ⟨hok, trivial⟩ (by unfold resolves; rw [h]; rfl)
  have hpr := encItems_printed [.elem n attrs kids] (Printer.new pre indent) p' o
      (by intro e he; simp [Printer.new] at he) ⟨hpre, hind⟩ ⟨hok, trivial⟩ he
  have hsteps := lex_pieces o hpr.ok (hpr.chain []) [] (Or.inl rfl)
  have hmarks := marks_outs o hpr.ok [] [] pending_nil (hpr.chain [])
  rw [List.append_nil, lexOuts_lexL] at hsteps
  rw [lexOuts_lexL] at hmarks
  obtain ⟨a1, a2⟩ := hw.lex []
  have a3 := hw.marks []
  have hlin : (linears (Printer.new pre indent).ind [x]).2 = (linear (Printer.new pre indent).ind x).2 := by
    simp [linears]
  rw [hlin] at a1 a2 a3
  have hend : (mergeL [] (linear (Printer.new pre indent).ind x).2).2 = [] := by
    unfold resolve at h
    split at h
    · cases h
    split at h
    · cases h
    split at h
    · cases h
    dsimp only at h
    split at h
    · split at h
      · cases h
      · injection h with h
        subst h
        unfold linear
        simp [mergeL, mergeL_append]
    · split at h
      · cases h
      · injection h with h
        subst h
        unfold linear
        simp [mergeL, mergeL_append]
  rw [a1, hend] at hsteps hmarks
  rw [show flush [] = [] from rfl, List.append_nil] at hsteps hmarks
  refine ⟨outBytes o, ?_, fun k hk => tokRun_doc _ _ _ hsteps a2 k hk, ?_⟩
  · unfold encode; rw [he]
  · have hl := specRun_length _ _ _ _ a2
    unfold nodeTokens
    rw [hl, ← a3]
    exact hmarks

/-- C29: a tree in which prefixes and namespaces correspond one to one on every path, and the default namespace is not
changed inside an element relying on it, is printed without error, and the decoder reads from the output exactly its
information content: every element and every attribute that was given a namespace has that namespace and local name, and
elements without namespace are in the default namespace in scope. -/
theorem C29_names_partial (pre indent : Bytes) (hpre : IsWs pre) (hind : IsWs indent) (n : Name) (attrs : List Attr)
    (kids : List Item) (hok : ItemOk (.elem n attrs kids)) (x : Node) (h : resolve Env.empty (.elem n attrs kids) = some x) :
    ∃ doc, encode pre indent [.elem n attrs kids] = .ok doc ∧
      ∀ k, (nodeTokens pre indent x).length < k → tokRun k (Dec.new doc) = (nodeTokens pre indent x, some .eof) := by
  obtain ⟨doc, h1, h2, _⟩ := names_marks pre indent hpre hind n attrs kids hok x h
  exact ⟨doc, h1, h2⟩

/-- The names and namespaces of the start tags the decoder finds. -/
def startNames (doc : Bytes) : List Name :=
  (tokRun (doc.length + 1) (Dec.new doc)).1.filterMap fun
    | .startElement n _ => some n
    | _ => none

/-- The tree of the refutation: `c` is given the namespace of `a`, inside `b` in another namespace. -/
def shadowTree : Item := .elem ⟨b!"urn:A", b!"a"⟩ [] [.elem ⟨b!"urn:B", b!"b"⟩ [] [.elem ⟨b!"urn:A", b!"c"⟩ [] []]]

/-- C29 is false in general: the printer relies on the default namespace of an outer element although an element in
between declares another one, and `c` ends up in the wrong namespace. -/
theorem C29_refuted : encode [] [] [shadowTree] = .ok b!"<a xmlns=\"urn:A\"><b xmlns=\"urn:B\"><c></c></b></a>" ∧
    startNames b!"<a xmlns=\"urn:A\"><b xmlns=\"urn:B\"><c></c></b></a>" =
      [⟨b!"urn:A", b!"a"⟩, ⟨b!"urn:B", b!"b"⟩, ⟨b!"urn:B", b!"c"⟩] := by decide +kernel

/-- A second way: an element with prefix that also declares its namespace as default is written with a prefix that is
nowhere declared. -/
theorem C29_refuted_prefix : encode [] [] [.elem ⟨b!"urn:A", b!"p:a"⟩ [⟨⟨[], b!"xmlns"⟩, b!"urn:A"⟩] []] =
      .ok b!"<p:a xmlns=\"urn:A\"></p:a>" ∧
    startNames b!"<p:a xmlns=\"urn:A\"></p:a>" = [⟨b!"p", b!"a"⟩] := by decide +kernel

/-- A third way: a declaration with a prefix made up for an attribute captures the prefix of the element. -/
theorem C29_refuted_capture :
    encode [] [] [.elem ⟨b!"urn:1", b!"x:a"⟩ [] [.elem ⟨b!"urn:1", b!"x:b"⟩ [⟨⟨b!"http://e/x", b!"at"⟩, b!"v"⟩] []]] =
      .ok b!"<x:a xmlns:x=\"urn:1\"><x:b xmlns:x=\"http://e/x\" x:at=\"v\"></x:b></x:a>" ∧
    startNames b!"<x:a xmlns:x=\"urn:1\"><x:b xmlns:x=\"http://e/x\" x:at=\"v\"></x:b></x:a>" =
      [⟨b!"urn:1", b!"a"⟩, ⟨b!"http://e/x", b!"b"⟩] := by decide +kernel

/-- A manifest with an xlink attribute, a prefixed element, and SCTE 35 content in its own default namespace. -/
def sampleTree : Item :=
  .elem ⟨[], b!"MPD"⟩ [⟨⟨[], b!"xmlns"⟩, b!"urn:mpeg:dash:schema:mpd:2011"⟩]
    [.elem ⟨[], b!"Period"⟩ [⟨⟨b!"http://www.w3.org/1999/xlink", b!"xlink:href"⟩, b!"a&b"⟩]
      [.elem ⟨b!"urn:mpeg:cenc:2013", b!"cenc:pssh"⟩ [] [.text b!"AAAA"],
       .elem ⟨[], b!"Event"⟩ []
        [.elem ⟨b!"http://www.scte.org/schemas/35/2016", b!"Signal"⟩ []
          [.elem ⟨b!"http://www.scte.org/schemas/35/2016", b!"Binary"⟩ [⟨⟨b!"http://e/ns", b!"at"⟩, b!"1"⟩] [.str b!"x<y"]],
         .elem ⟨b!"http://www.scte.org/schemas/35/2016", b!"Signal"⟩
          [⟨⟨b!"http://www.w3.org/2000/xmlns/", b!"scte35"⟩, b!"http://www.scte.org/schemas/35/2016"⟩]
          [.elem ⟨b!"http://www.scte.org/schemas/35/2016", b!"Binary"⟩ [] []]]]]

/-- The names intended, as read back. -/
example : (resolve Env.empty sampleTree).isSome = true ∧
    (∃ doc, encode [] b!"  " [sampleTree] = .ok doc ∧ startNames doc =
      [⟨b!"urn:mpeg:dash:schema:mpd:2011", b!"MPD"⟩, ⟨b!"urn:mpeg:dash:schema:mpd:2011", b!"Period"⟩,
       ⟨b!"urn:mpeg:cenc:2013", b!"pssh"⟩, ⟨b!"urn:mpeg:dash:schema:mpd:2011", b!"Event"⟩,
       ⟨b!"http://www.scte.org/schemas/35/2016", b!"Signal"⟩, ⟨b!"http://www.scte.org/schemas/35/2016", b!"Binary"⟩,
       ⟨b!"http://www.scte.org/schemas/35/2016", b!"Signal"⟩, ⟨b!"http://www.scte.org/schemas/35/2016", b!"Binary"⟩]) := by
  refine ⟨by decide +kernel, ?_⟩
  cases h : encode [] b!"  " [sampleTree] with
  | error e =>
    have : (encode [] b!"  " [sampleTree]).isOk = true := by decide +kernel
    rw [h] at this; cases this
  | ok doc =>
    refine ⟨doc, rfl, ?_⟩
    have : (encode [] b!"  " [sampleTree]).map startNames = .ok
      [⟨b!"urn:mpeg:dash:schema:mpd:2011", b!"MPD"⟩, ⟨b!"urn:mpeg:dash:schema:mpd:2011", b!"Period"⟩,
       ⟨b!"urn:mpeg:cenc:2013", b!"pssh"⟩, ⟨b!"urn:mpeg:dash:schema:mpd:2011", b!"Event"⟩,
       ⟨b!"http://www.scte.org/schemas/35/2016", b!"Signal"⟩, ⟨b!"http://www.scte.org/schemas/35/2016", b!"Binary"⟩,
       ⟨b!"http://www.scte.org/schemas/35/2016", b!"Signal"⟩, ⟨b!"http://www.scte.org/schemas/35/2016", b!"Binary"⟩] := by
      decide +kernel
    rw [h] at this
    injection this

end Verif.Xml
