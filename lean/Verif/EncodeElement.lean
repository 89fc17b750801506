import Verif.Elements

/-!
C88: `EncodeElement` (`/repo/xml/marshal.go` 222-235), which writes a value with a given start element.
-/
namespace Verif.Bind

open Verif.Xml Verif.FloatText

/-! ### The code -/

/-- `StartElement` (`/repo/xml/xml.go` 57-62). -/
structure Start where
  name : Name
  attrs : List Attr

/-- The number of fields that are attributes (`/repo/xml/typeinfo.go` 147-154). -/
def nAttrs (infos : List FInfo) : Nat := (infos.filter fun f => f.mode == .attr).length

/-- What is left of the attributes of the start element before those of the fields are added (`/repo/xml/marshal.go` 581-583 and
612-615): they are copied with `append`, and if the capacity of the copy is less than the number of attribute fields, it is replaced
by an empty list.  `cap` gives the capacity for a length, which is up to the implementation of Go. -/
def givenAttrs (cap : Nat → Nat) (infos : List FInfo) (as : List Attr) : List Attr :=
  if cap as.length < nAttrs infos then [] else as

/-- `marshalValue` with a start element (`/repo/xml/marshal.go` 510-672), at the top. -/
def encodeV (io : FloatIO) (cap : Nat → Nat) (st : Start) : Sch → Val → Except MErr (List Item)
  | .ptr _, .ptr none => .ok []
  | .ptr s, .ptr (some v) => encodeV io cap st s v
  | .slice s, .slice l => concatM (l.map fun v => encodeV io cap st s v)
  | .simple k, v =>
    match marshalSimple io k v with
    | .error e => .error e
    | .ok b => .ok [.elem st.name (givenAttrs cap [] st.attrs) [.str b]]
  | .struct _ xn infos subs, .struct _ vs =>
    match marshalAttrs io infos subs vs with
    | .error e => .error e
    | .ok attrs =>
      match marshalFields io st.name.space infos subs vs with
      | .error e => .error e
      | .ok kids => .ok [.elem st.name (givenAttrs cap infos st.attrs ++ (attrs ++ resetNs [] xn st.name)) kids]
  | .bad e, _ => .error (.info e)
  | _, _ => .error .unsupported

/-- Errors of `EncodeElement`. -/
inductive EErr where
  | missingName
  | write (e : WErr)

/-- `EncodeElement` (`/repo/xml/marshal.go` 229-235) to a writer that accepts everything, with a given indentation. -/
def encodeElement (io : FloatIO) (cap : Nat → Nat) (s : Sch) (v : Val) (st : Start) (indent : Bytes) : Except EErr Bytes :=
  if st.name.loc = [] then .error .missingName
  else
    match encodeV io cap st s v with
    | .error e => .error (.write (.marshal e))
    | .ok items =>
      match encode [] indent items with
      | .error e => .error (.write (.encode e))
      | .ok doc => .ok doc

/-! ### The name -/

/-- **C88**: with the name that an element has in a field, and no attributes, `EncodeElement` writes what is written for the field:
`ns` is the namespace around it. -/
theorem C88_like_field (io : FloatIO) (cap : Nat → Nat) (ns : Bytes) (f : FInfo) (tn : Bytes) (xn : Option FInfo) (F : List FInfo) (S : List Sch)
    (xv : Name) (vs : List Val) (h : tagless xn = false ∨ ns = []) :
    encodeV io cap ⟨startName xn xv (some f) tn, []⟩ (.struct tn xn F S) (.struct xv vs) =
      marshalV io ns (some f) (.struct tn xn F S) (.struct xv vs) := by
  have hg : givenAttrs cap F [] = [] := by unfold givenAttrs; split <;> rfl
  have hr : ∀ n, resetNs [] xn n = resetNs ns xn n := by
    intro n
    rcases h with h | h
    · unfold resetNs
      cases xn with
      | none => rfl
      | some x =>
        have : x.loc ≠ [] := by simpa [tagless] using h
        simp [this]
    · rw [h]
  simp only [encodeV, marshalV, hg, List.nil_append, hr]
  cases marshalAttrs io F S vs with
  | error e => rfl
  | ok a => cases marshalFields io (startName xn xv (some f) tn).space F S vs <;> rfl

/-- The name is the given one, whatever the type and its `XMLName`. -/
theorem C88_name (io : FloatIO) (cap : Nat → Nat) (st : Start) : ∀ (s : Sch) (v : Val) (items : List Item),
    encodeV io cap st s v = .ok items → ∀ i ∈ items, Item.name i = st.name
  | .ptr s, v, items, h => by
    cases v with
    | ptr o =>
      cases o with
      | none => simp only [encodeV] at h; injection h with h; subst h; simp
      | some v => rw [encodeV] at h; exact C88_name io cap st s v items h
    | _ => simp [encodeV] at h
  | .slice s, v, items, h => by
    cases v with
    | slice l =>
      rw [encodeV] at h
      have ih := fun v items h => C88_name io cap st s v items h
      induction l generalizing items with
      | nil => simp only [List.map_nil, concatM] at h; injection h with h; subst h; simp
      | cons v l ihl =>
        rw [List.map_cons] at h
        cases h1 : encodeV io cap st s v with
        | error e => rw [h1, concatM] at h; cases h
        | ok a =>
          rw [h1, concatM] at h
          cases h2 : concatM (l.map fun v => encodeV io cap st s v) with
          | error e => rw [h2] at h; cases h
          | ok b =>
            rw [h2] at h
            injection h with h
            subst h
            intro i hi
            rcases List.mem_append.1 hi with hi | hi
            · exact ih v a h1 i hi
            · exact ihl b h2 i hi
    | _ => simp [encodeV] at h
  | .simple k, v, items, h => by
    rw [encodeV] at h
    split at h
    · cases h
    · injection h with h; subst h; simp [Item.name]
  | .struct tn xn F S, v, items, h => by
    cases v with
    | struct xv vs =>
      rw [encodeV] at h
      split at h
      · cases h
      · split at h
        · cases h
        · injection h with h; subst h; simp [Item.name]
    | _ => simp [encodeV] at h
  | .bad e, v, items, h => by cases v <;> simp [encodeV] at h
  | .attr, v, items, h => by cases v <;> simp [encodeV] at h
  | .name, v, items, h => by cases v <;> simp [encodeV] at h

/-- A start element without a name is refused, and only such a one is refused for its name. -/
theorem C88_missing (io : FloatIO) (cap : Nat → Nat) (s : Sch) (v : Val) (st : Start) (indent : Bytes) :
    encodeElement io cap s v st indent = .error .missingName ↔ st.name.loc = [] := by
  unfold encodeElement
  split
  · rename_i h; simp [h]
  · rename_i h
    split
    · simp [h]
    · split <;> simp [h]

/-! ### The attributes -/

/-- The elements with attributes in front of their own. -/
def Item.withAttrs (as : List Attr) : Item → Item
  | .elem n l kids => .elem n (as ++ l) kids
  | i => i

/-- **C88**, the attributes of a struct: they are in front of those of the fields exactly if there are none, or the copy of them has
room for as many as there are attribute fields. -/
theorem C88_attrs_iff (io : FloatIO) (cap : Nat → Nat) (n : Name) (as : List Attr) (tn : Bytes) (xn : Option FInfo) (F : List FInfo)
    (S : List Sch) (v : Val) (items : List Item) (h : encodeV io cap ⟨n, []⟩ (.struct tn xn F S) v = .ok items) :
    encodeV io cap ⟨n, as⟩ (.struct tn xn F S) v = .ok (items.map (Item.withAttrs as)) ↔ as = [] ∨ nAttrs F ≤ cap as.length := by
  cases v with
  | struct xv vs =>
    have hg : givenAttrs cap F [] = [] := by unfold givenAttrs; split <;> rfl
    simp only [encodeV, hg, List.nil_append] at h ⊢
    split at h
    · cases h
    · rename_i attrs ha
      split at h
      · cases h
      · rename_i kids hk
        injection h with h
        subst h
        simp only [List.map_cons, List.map_nil, Item.withAttrs]
        unfold givenAttrs
        by_cases hc : cap as.length < nAttrs F
        · rw [if_pos hc]
          simp
          omega
        · rw [if_neg hc]
          simp
          omega
  | _ => simp [encodeV] at h

/-- If not, all of them are lost. -/
theorem C88_lost (io : FloatIO) (cap : Nat → Nat) (n : Name) (as : List Attr) (tn : Bytes) (xn : Option FInfo) (F : List FInfo)
    (S : List Sch) (v : Val) (h : cap as.length < nAttrs F) :
    encodeV io cap ⟨n, as⟩ (.struct tn xn F S) v = encodeV io cap ⟨n, []⟩ (.struct tn xn F S) v := by
  cases v with
  | struct xv vs =>
    have hg : givenAttrs cap F [] = [] := by unfold givenAttrs; split <;> rfl
    have hg' : givenAttrs cap F as = [] := by unfold givenAttrs; rw [if_pos h]
    simp only [encodeV, hg, hg']
  | _ => simp [encodeV]

/-- The attributes of elements for values that are not structs are written. -/
theorem C88_simple (io : FloatIO) (cap : Nat → Nat) (st : Start) (k : Kind) (v : Val) (b : Bytes) (h : marshalSimple io k v = .ok b) :
    encodeV io cap st (.simple k) v = .ok [.elem st.name st.attrs [.str b]] := by
  simp [encodeV, h, givenAttrs, nAttrs]

/-! ### Reading back -/

/-- `sch_back` for a value that is written like one in a field. -/
theorem sch_back_named (io : FloatIO) (s : Sch) (A : Pairs) (L : List Bytes) (f : FInfo) (hf : tagOk f = true) (hst : isStruct s = true)
    (hok : s.ok = true) (hrt : s.rt L = true) (hns : s.nsRt A [] (some f) false = true) (hAL : ∀ x ∈ A, x.1 ∉ L)
    (hh : hgt s < maxDepth) (X : Pairs) (hX : extOk A X L = true) (v : Val) (ht : Typed s v) (hc : Canon io (some f) s v)
    (hn : NsOk X [] [] (some f) s v) :
    ∃ w, Back s v w ∧ ∀ indent, IsWs indent →
      ∃ items doc w', marshalV io [] (some f) s v = .ok items ∧ encode [] indent items = .ok doc ∧ unmarshalDoc io s doc = .ok w' ∧
        Loose s w w' ∧ (indent = [] ∨ NoMix s v → w' = w) := by
  obtain ⟨tn, xn, hs⟩ := struct_eta s hst
  have hna : s.noAttr = true := by rw [hs]; rfl
  obtain ⟨items, hm⟩ := marshalV_ok io L s _ _ _ hrt hna ht (canon_whole _ _ _ hc)
  obtain ⟨hio, xs, hr, hd⟩ := keptV io A X L hX hAL s [] [] (some f) false [] v Env.empty items hns hrt hna ht hc hn
    (fun g hg => by cases hg; exact hf)
    ⟨by simp [From, Env.empty], by simp, fun _ => rfl, Or.inl rfl⟩ hm
  have hone : One io L s := by
    rw [hs] at hrt hok ⊢
    exact struct_back io L _ _ _ _ hrt hok
  have hnil : v.isNil = false := by
    rw [hs] at ht
    cases v <;> first | rfl | simp [Typed] at ht
  obtain ⟨n, as, kids, rfl, _, w, hb, hread⟩ := hone (some f) v [] Env.empty items xs ht hc hnil
    (fun g hg => by cases hg; exact hf) (fun _ => ⟨_, _, _, _, hs⟩) hm hr hd
  refine ⟨w, hb, ?_⟩
  intro indent hind
  obtain ⟨i, rfl, hi⟩ := resolves_single hr
  obtain ⟨doc, he, t, hdoc, hsees⟩ := doc_read indent hind i hio.1 n as kids hi false
  obtain ⟨w', hnear, hread⟩ := hread _ t hsees false 0 (Or.inr (by rw [hs]; rfl)) (by omega)
  refine ⟨_, doc, w', hm, he, ?_, hnear.1, fun h => hnear.2 (h.imp_left fun h => by simp [h])⟩
  have hdoc' : IsDoc doc t := by simpa using hdoc
  rw [unmarshalDoc_tree io _ _ t hdoc']
  exact hread

/-- **C88**, in part: a value of a type of element in the manifest that has no `XMLName`, written with any name, is read back as the
same. -/
theorem C88_back_partial (io : FloatIO) (hio : GoFloats io) (cap : Nat → Nat) (l : Bytes) (hl : NCName l) (hx : l ≠ xmlnsPrefix) (indent : Bytes)
    (hind : IsWs indent) (X : Pairs) (hX : extOk mpdPairs X mpdLocs = true) (tn : Bytes) (F : List FInfo) (S : List Sch)
    (hs : Sch.struct tn none F S ∈ elementTypes) (v : Val) (ht : Typed (.struct tn none F S) v) (hc : Fine none (.struct tn none F S) v)
    (hn : NsOk X [] [] (some (standIn l)) (.struct tn none F S) v) :
    ∃ doc w, encodeElement io cap (.struct tn none F S) v ⟨⟨[], l⟩, []⟩ indent = .ok doc ∧
      unmarshalDoc io (.struct tn none F S) doc = .ok w ∧ Returned indent (.struct tn none F S) v w := by
  obtain ⟨hok, hrt, hns, hh, -⟩ := elements_ok hs
  have hne : l ≠ [] := by rintro rfl; exact absurd hl.1 (by decide)
  have hAL : ∀ x ∈ mpdPairs, x.1 ∉ mpdLocs := fun x hx => by
    have := mpd_pairs; rw [List.all_eq_true] at this; simpa using this x hx
  cases v with
  | struct xv vs =>
    have hname : startName none xv (some (standIn l)) tn = ⟨[], l⟩ := by simp [startName, standIn, joinPrefixed, hne]
    have hcan : Canon io (some (standIn l)) (.struct tn none F S) (.struct xv vs) := by
      have := fine_canon io hio _ _ _ hc
      simp only [Canon] at this ⊢
      rw [hname]
      refine ⟨⟨by simp, ?_⟩, this.2⟩
      intro f hf
      cases hf
      exact ⟨by rw [splitPrefixed_colonless hl.2]; rfl, .inl rfl⟩
    obtain ⟨w, hb, hw⟩ := sch_back_named io (.struct tn none F S) mpdPairs mpdLocs (standIn l) (by simp [tagOk, standIn, hl, xmlnsURL])
      rfl hok hrt (nsRt_standIn _ _ _ (by decide) hx _ _ _ _ hns) hAL hh X hX (.struct xv vs) ht hcan hn
    obtain ⟨items, doc, w', h1, h2, h3, h4, h5⟩ := hw indent hind
    refine ⟨doc, w', ?_, h3, w, hb, h4, h5⟩
    have := C88_like_field io cap [] (standIn l) tn none F S xv vs (.inr rfl)
    rw [hname] at this
    unfold encodeElement
    rw [if_neg hne, this, h1]
    dsimp only
    rw [h2]
  | _ => simp [Typed] at ht

/-- The same for values that are built. -/
theorem C88_built (io : FloatIO) (hio : GoFloats io) (cap : Nat → Nat) (l : Bytes) (hl : NCName l) (hx : l ≠ xmlnsPrefix) (indent : Bytes)
    (hind : IsWs indent) (tn : Bytes) (F : List FInfo) (S : List Sch) (hs : Sch.struct tn none F S ∈ elementTypes) (v : Val)
    (h : Built none (.struct tn none F S) v) :
    ∃ doc w, encodeElement io cap (.struct tn none F S) v ⟨⟨[], l⟩, []⟩ indent = .ok doc ∧
      unmarshalDoc io (.struct tn none F S) doc = .ok w ∧ Returned indent (.struct tn none F S) v w := by
  have hall := elements_ok hs
  have hne : l ≠ [] := by rintro rfl; exact absurd hl.1 (by decide)
  have ho : (Sch.struct tn none F S).outer (some (standIn l)) = true := by
    have := hall.outer
    simp only [Sch.outer] at this ⊢
    simpa [startName, standIn, joinPrefixed, hne] using this
  exact C88_back_partial io hio cap l hl hx indent hind [] vodVal_ok.2.2.2.2 tn F S hs v h.sound.ty h.sound.fine
    (scte_ns [] mpdLocs _ _ _ _ _ hall.rt ho (.inl rfl) h.sound.ty h.sound.xn h.sound.fo)

/-! ### Cases, and where it is false -/

/-- The attribute `x="1"`. -/
def exAttr : Attr := ⟨⟨[], b!"x"⟩, b!"1"⟩

/-- The number of attribute fields of a type. -/
def attrsOf : Sch → Nat
  | .struct _ _ F _ => nAttrs F
  | _ => 0

theorem set_attrs : attrsOf tAdaptationSetType.sch = 42 := by decide +kernel

/-- Without attributes the capacity makes no difference. -/
theorem encodeV_cap (io : FloatIO) (cap cap' : Nat → Nat) (n : Name) (s : Sch) (hs : isStruct s = true) (v : Val) :
    encodeV io cap ⟨n, []⟩ s v = encodeV io cap' ⟨n, []⟩ s v := by
  obtain ⟨tn, xn, e⟩ := struct_eta s hs
  rw [e]
  have hg : ∀ c F, givenAttrs c F [] = [] := by intro c F; unfold givenAttrs; split <;> rfl
  cases v <;> simp only [encodeV, hg]

theorem set_text (io : FloatIO) (as : List Attr) (cap : Nat → Nat) (h : cap as.length < 42) :
    encodeElement io cap tAdaptationSetType.sch newAdaptationSet ⟨⟨[], b!"AdaptationSet"⟩, as⟩ [] = .ok b!"<AdaptationSet></AdaptationSet>" := by
  have h0 : encodeElement io (fun _ => 0) tAdaptationSetType.sch newAdaptationSet ⟨⟨[], b!"AdaptationSet"⟩, []⟩ [] =
      .ok b!"<AdaptationSet></AdaptationSet>" := by krfl
  obtain ⟨tn, xn, e⟩ := struct_eta tAdaptationSetType.sch (by decide +kernel)
  have hl : encodeV io cap ⟨⟨[], b!"AdaptationSet"⟩, as⟩ tAdaptationSetType.sch newAdaptationSet =
      encodeV io (fun _ => 0) ⟨⟨[], b!"AdaptationSet"⟩, []⟩ tAdaptationSetType.sch newAdaptationSet := by
    rw [← encodeV_cap io cap _ _ _ (by decide +kernel), e]
    refine C88_lost io cap _ as _ _ _ _ _ ?_
    have := set_attrs
    rw [e] at this
    simp only [attrsOf] at this
    rw [this]
    exact h
  unfold encodeElement at h0 ⊢
  rw [hl]
  exact h0

/-- C88 is false of attributes: one attribute given for an adaptation set is lost, unless Go makes room for 42 when it copies one. -/
theorem C88_attrs_refuted (io : FloatIO) (cap : Nat → Nat) (h : cap 1 < 42) :
    encodeElement io cap tAdaptationSetType.sch newAdaptationSet ⟨⟨[], b!"AdaptationSet"⟩, [exAttr]⟩ [] = .ok b!"<AdaptationSet></AdaptationSet>" :=
  set_text io [exAttr] cap h

/-- With three attributes, those of a descriptor are kept. -/
example (io : FloatIO) : encodeElement io id tDescriptorType.sch (newRole (b!"main")) ⟨⟨[], b!"Role"⟩, [exAttr, ⟨⟨[], b!"y"⟩, b!"2"⟩, ⟨⟨[], b!"z"⟩, b!"3"⟩]⟩ [] =
    .ok b!"<Role x=\"1\" y=\"2\" z=\"3\" schemeIdUri=\"urn:mpeg:dash:role:2011\" value=\"main\"></Role>" := by krfl

/-- With two they are lost. -/
example (io : FloatIO) : encodeElement io id tDescriptorType.sch (newRole (b!"main")) ⟨⟨[], b!"Role"⟩, [exAttr, ⟨⟨[], b!"y"⟩, b!"2"⟩]⟩ [] =
    .ok b!"<Role schemeIdUri=\"urn:mpeg:dash:role:2011\" value=\"main\"></Role>" := by krfl

/-- A type with a name in its `XMLName` is not read with another one. -/
theorem C88_other_name_refuted (io : FloatIO) :
    encodeElement io id tLabelType.sch tLabelType.sch.zero ⟨⟨[], b!"GroupLabel"⟩, []⟩ [] = .ok b!"<GroupLabel></GroupLabel>" ∧
    unmarshalDoc io tLabelType.sch b!"<GroupLabel></GroupLabel>" = .error .expectedName :=
  ⟨by krfl, by krfl⟩

/-- An adaptation set with its name in the manifest, or any other. -/
example (io : FloatIO) (hio : GoFloats io) (cap : Nat → Nat) (l : Bytes) (hl : NCName l) (hx : l ≠ xmlnsPrefix) : ∃ doc w,
    encodeElement io cap tAdaptationSetType.sch newAdaptationSet ⟨⟨[], l⟩, []⟩ (b!"  ") = .ok doc ∧
      unmarshalDoc io tAdaptationSetType.sch doc = .ok w ∧ Returned (b!"  ") tAdaptationSetType.sch newAdaptationSet w := by
  obtain ⟨tn, xn, e⟩ := struct_eta tAdaptationSetType.sch (by decide +kernel)
  have hx' : xn = none := by
    have : (match tAdaptationSetType.sch with | .struct _ x _ _ => x.isNone | _ => false) = true := by decide +kernel
    rw [e] at this
    simpa using this
  subst hx'
  have hb : Built none tAdaptationSetType.sch newAdaptationSet := new_built (by decide +kernel) (by decide +kernel)
  have hs := set_element
  rw [e] at hb hs ⊢
  exact C88_built io hio cap l hl hx _ (by unfold IsWs; decide) _ _ _ hs _ hb

end Verif.Bind
