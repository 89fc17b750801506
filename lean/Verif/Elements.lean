import Verif.Splice
import Verif.ElementTypes

/-!
C85: elements written on their own (`WriteXML`, `/repo/mpd/io.go` 55-80).
-/
namespace Verif.Bind

open Verif.Xml Verif.FloatText

/-! ### The name of an element that is written on its own -/

/-- The name of the element written for a value that is given to `Encode` (`/repo/xml/marshal.go` 580-637). -/
def rootName : Sch → Val → Name
  | .struct tn xn _ _, .struct xv _ => startName xn xv none tn
  | _, _ => ⟨[], []⟩

theorem startName_standIn {tn : Bytes} (htn : NCName tn) (xn : Option FInfo) (xv : Name) :
    startName xn xv (some (standIn (splitPrefixed (startName xn xv none tn).loc).2)) tn = startName xn xv none tn := by
  have hs : (splitPrefixed tn).2 = tn := by rw [splitPrefixed_colonless htn.2]
  have hne : tn ≠ [] := by
    intro h
    have := htn.1
    rw [h] at this
    exact absurd this (by decide)
  cases xn with
  | none => simp [startName, standIn, joinPrefixed, hs, hne]
  | some x =>
    by_cases hx : x.loc = []
    · by_cases hv : xv.loc = []
      · simp [startName, standIn, joinPrefixed, hs, hne, hx, hv]
      · simp [startName, hx, hv]
    · have hj : joinPrefixed x.pre x.loc ≠ [] := by
        unfold joinPrefixed
        split
        · exact hx
        · simp
      simp [startName, hx, hj]

theorem nsRt_standIn (A : Pairs) (a b : Bytes) (ha : a ≠ xmlnsPrefix) (hb : b ≠ xmlnsPrefix) (tn : Bytes) (xn : Option FInfo)
    (F : List FInfo) (S : List Sch) (h : (Sch.struct tn xn F S).nsRt A [] (some (standIn a)) false = true) :
    (Sch.struct tn xn F S).nsRt A [] (some (standIn b)) false = true := by
  cases xn <;> simp only [Sch.nsRt, standIn, elemTag, startPairs, tagPair] at h ⊢ <;> simpa [ha, hb] using h

theorem named_standIn (A : Pairs) (f : FInfo) (tn : Bytes) (x : FInfo) (hx : x.loc ≠ []) (F : List FInfo) (S : List Sch)
    (h : (Sch.struct tn (some x) F S).nsRt A [] (some f) false = true) : x.pre = [] ∧ x.loc ≠ xmlnsPrefix ∧ NCName x.loc := by
  have ht : tagless (some x) = false := by simp [tagless, hx]
  simp only [Sch.nsRt, ht, Bool.false_eq_true, if_false, Bool.and_eq_true] at h
  have := h.1.1.1.1.2
  simp only [beq_iff_eq, bne_iff_ne, ne_eq, decide_eq_true_eq] at this
  exact ⟨this.1.1.2, this.1.2, this.2⟩

/-- `sch_back` for a value that is written like one in a field. -/
theorem sch_back_as (io : FloatIO) (s : Sch) (A : Pairs) (L : List Bytes) (f : FInfo) (hf : tagOk f = true) (hst : isStruct s = true)
    (hok : s.ok = true) (hrt : s.rt L = true) (hns : s.nsRt A [] (some f) false = true) (hAL : ∀ x ∈ A, x.1 ∉ L)
    (hh : hgt s < maxDepth) (X : Pairs) (hX : extOk A X L = true) (v : Val) (ht : Typed s v) (hc : Canon io (some f) s v)
    (hn : NsOk X [] [] (some f) s v) (hmm : marshalV io [] none s v = marshalV io [] (some f) s v) :
    ∃ w, Back s v w ∧ ∀ indent, IsWs indent → ∀ hdr,
      ∃ doc w', writeDoc io s v indent hdr = .ok doc ∧ unmarshalDoc io s doc = .ok w' ∧
        Loose s w w' ∧ (indent = [] ∨ NoMix s v → w' = w) := by
  obtain ⟨tn, xn, hs⟩ := struct_eta s hst
  have hna : s.noAttr = true := by rw [hs]; rfl
  obtain ⟨items, hm⟩ := marshalV_ok io L s _ _ _ hrt hna ht (canon_whole _ _ _ hc)
  obtain ⟨hio, xs, hr, hd⟩ := keptV io A X L hX hAL s [] [] (some f) false [] v Env.empty items hns hrt hna ht hc hn
    (fun g hg => by cases hg; exact hf)
    ⟨by simp [From, Env.empty], by simp, fun _ => rfl, Or.inl rfl⟩ hm
  have hone : One io L s := by
    rw [hs] at hrt hok ⊢
    exact struct_back io L _ _ _ _ hrt hok
  have hnil : v.isNil = false := by
    rw [hs] at ht
    cases v <;> first | rfl | simp [Typed] at ht
  obtain ⟨n, as, kids, rfl, _, w, hb, hread⟩ := hone (some f) v [] Env.empty items xs ht hc hnil
    (fun g hg => by cases hg; exact hf) (fun _ => ⟨_, _, _, _, hs⟩) hm hr hd
  refine ⟨w, hb, ?_⟩
  intro indent hind hdr
  obtain ⟨i, rfl, hi⟩ := resolves_single hr
  obtain ⟨doc, he, t, hdoc, hsees⟩ := doc_read indent hind i hio.1 n as kids hi hdr
  obtain ⟨w', hnear, hread⟩ := hread _ t hsees false 0 (Or.inr (by rw [hs]; rfl)) (by omega)
  refine ⟨(if hdr then xmlHeader else []) ++ doc, w', ?_, ?_, hnear.1, fun h => hnear.2 (h.imp_left fun h => by simp [h])⟩
  · unfold writeDoc marshal
    rw [hmm, hm]
    dsimp only
    rw [he]
  · rw [unmarshalDoc_tree io _ _ t hdoc]
    exact hread

/-! ### The types -/

/-- What is needed of a type. -/
structure AloneOk (s : Sch) : Prop where
  ok : s.ok = true
  rt : s.rt mpdLocs = true
  ns : s.nsRt mpdPairs [] (some (standIn (b!"x"))) false = true
  hgt : hgt s < maxDepth
  outer : s.outer none = true

theorem elements_ok {s : Sch} (hs : s ∈ elementTypes) : AloneOk s := by
  have h1 := List.all_eq_true.1 elements_ns s hs
  have h2 := List.all_eq_true.1 elements_outer s hs
  obtain ⟨q, hq, rfl⟩ := List.mem_map.1 hs
  exact ⟨structs_ok _ mpd_ok q hq, structs_rt _ _ mpd_rt q hq, h1, Nat.lt_of_le_of_lt (structs_hgt _ q hq) mpd_hgt, h2⟩

/-- The name of the element for a value of a type that takes its name from `XMLName` is one. -/
def RootOk : Sch → Val → Prop
  | .struct _ xn _ _, .struct xv _ => tagless xn = true → xv.loc ≠ [] → NCName xv.loc ∧ xv.loc ≠ xmlnsPrefix
  | _, _ => True

/-- **C85**, in part: a value of any type of element in the manifest that is written on its own is read back as the same, with
any indentation.  The conditions are those of C30. -/
theorem C85_back_partial (io : FloatIO) (hio : GoFloats io) (indent : Bytes) (hind : IsWs indent) (hdr : Bool) (X : Pairs)
    (hX : extOk mpdPairs X mpdLocs = true) (s : Sch) (hs : s ∈ elementTypes) (v : Val) (ht : Typed s v) (hc : Fine none s v)
    (hn : NsOk X [] [] none s v) (hr : RootOk s v) :
    ∃ doc w, writeDoc io s v indent hdr = .ok doc ∧ unmarshalDoc io s doc = .ok w ∧ Returned indent s v w := by
  obtain ⟨hok, hrt, hns, hh, -⟩ := elements_ok hs
  obtain ⟨⟨tn, xn, F, S⟩, hq, rfl⟩ := List.mem_map.1 hs
  have hname := List.all_eq_true.1 elements_names _ hq
  simp only [decide_eq_true_eq] at hname
  cases v with
  | struct xv vs =>
    have hsi := startName_standIn hname.1 xn xv
    generalize hl : (splitPrefixed (startName xn xv none tn).loc).2 = l at hsi
    have hnc : NCName l ∧ l ≠ xmlnsPrefix := by
      have plain : ∀ b : Bytes, NCName b ∧ b ≠ xmlnsPrefix → NCName (splitPrefixed b).2 ∧ (splitPrefixed b).2 ≠ xmlnsPrefix :=
        fun b hb => by rw [splitPrefixed_colonless hb.1.2]; exact hb
      rw [← hl]
      cases xn with
      | none => exact plain _ (by simpa [startName] using hname)
      | some x =>
        by_cases hx : x.loc = []
        · by_cases hv : xv.loc = []
          · exact plain _ (by simpa [startName, hx, hv] using hname)
          · exact plain _ (by simpa [startName, hx, hv] using hr (by simp [tagless, hx]) hv)
        · obtain ⟨h1, h2, h3⟩ := named_standIn _ _ _ _ hx _ _ hns
          exact plain _ (by simp [startName, hx, h1, joinPrefixed, h2, h3])
    have hAL : ∀ x ∈ mpdPairs, x.1 ∉ mpdLocs := fun x hx => by
      have := mpd_pairs; rw [List.all_eq_true] at this; simpa using this x hx
    obtain ⟨w, h1, h2⟩ := sch_back_as io (.struct tn xn F S) mpdPairs mpdLocs (standIn l) (by simp [tagOk, standIn, hnc.1, xmlnsURL])
      rfl hok hrt (nsRt_standIn _ _ _ (by decide) hnc.2 _ _ _ _ hns) hAL hh X hX (.struct xv vs) ht
      (by
        have := fine_canon io hio _ _ _ hc
        simp only [Canon] at this ⊢
        rw [hsi]
        refine ⟨⟨this.1.1, ?_⟩, this.2⟩
        intro f hf
        cases hf
        exact ⟨hl, .inl rfl⟩)
      (by
        simp only [NsOk] at hn ⊢
        rw [hsi]
        exact hn)
      (by simp only [marshalV]; rw [hsi])
    obtain ⟨doc, w', h3, h4, h5, h6⟩ := h2 indent hind hdr
    exact ⟨doc, w', h3, h4, w, h1, h5, h6⟩
  | _ => simp [Typed] at ht

/-- **C85** for values that are built from `&T{}` (`Built`): nothing else is needed of a type whose name is not taken from
`XMLName`. -/
theorem C85_built (io : FloatIO) (hio : GoFloats io) (indent : Bytes) (hind : IsWs indent) (hdr : Bool) (s : Sch)
    (hs : s ∈ elementTypes) (v : Val) (h : Built none s v) (hr : RootOk s v) :
    ∃ doc w, writeDoc io s v indent hdr = .ok doc ∧ unmarshalDoc io s doc = .ok w ∧ Returned indent s v w := by
  have hall := elements_ok hs
  exact C85_back_partial io hio indent hind hdr [] vodVal_ok.2.2.2.2 s hs v h.sound.ty h.sound.fine
    (scte_ns [] mpdLocs _ _ _ _ _ hall.rt hall.outer (.inl rfl) h.sound.ty h.sound.xn h.sound.fo) hr

/-! ### The names of elements on their own and in the manifest -/

/-- The struct type of the elements of a field. -/
def structUnder : Sch → Option (Bytes × Option FInfo)
  | .ptr s => structUnder s
  | .slice s => structUnder s
  | .struct tn xn _ _ => some (tn, xn)
  | _ => none

/-- All fields for elements with a struct type in the manifest: the field, the type of the elements and its `XMLName`. -/
def elementUses : List (FInfo × Bytes × Option FInfo) :=
  (structs tMPD.sch).flatMap fun q => (q.2.2.1.zip q.2.2.2).filterMap fun p =>
    if p.1.mode = .elem then (structUnder p.2).map fun t => (p.1, t) else none

/-- The types whose elements have the same name on their own and in the manifest. -/
def keptNames : List Bytes :=
  [b!"PatchLocationType", b!"ServiceDescriptionType", b!"InitializationSetType", b!"UIntVWithIDType", b!"ContentProtectionType",
   b!"Period", b!"LatencyType", b!"PlaybackRateType", b!"OperatingQualityType", b!"OperatingBandwidthType",
   b!"UIntPairsWithIDType", b!"SwitchingType", b!"RandomAccessType", b!"LabelType", b!"ProducerReferenceTimeType",
   b!"ContentPopularityRateType", b!"ResyncType", b!"EventType", b!"PR", b!"SubsetType", b!"PreselectionType", b!"FCS", b!"S",
   b!"ContentComponentType", b!"RepresentationType", b!"ExtendedBandwidthType", b!"SubRepresentationType", b!"ModelPairType"]

theorem uses_names : elementUses.all (fun u => (startName u.2.2 ⟨[], []⟩ none u.2.1 == startName u.2.2 ⟨[], []⟩ (some u.1) u.2.1) ==
    keptNames.contains u.2.1) = true := by decide +kernel

/-- `FCS` and `S` are fields and types; the others have their name in the tag of `XMLName`. -/
theorem uses_tagged : elementUses.all (fun u => match u.2.2 with
    | none => true
    | some x => x.loc != [] || !keptNames.contains u.2.1) = true := by decide +kernel

/-- The name of an element. -/
def Item.name : Item → Name
  | .elem n _ _ => n
  | _ => ⟨[], []⟩

/-- **C85**: an element written on its own has the name that it has in the manifest exactly if its type is one of `keptNames`, or
is one of SCTE-35 and has a name in `XMLName`.  Others are written with the name of their Go type. -/
theorem C85_names (io : FloatIO) (ns : Bytes) (f : FInfo) (tn : Bytes) (xn : Option FInfo) (F : List FInfo) (S : List Sch)
    (hu : (f, tn, xn) ∈ elementUses) (xv : Name) (vs : List Val) (alone inside : List Item)
    (h0 : marshal io (.struct tn xn F S) (.struct xv vs) = .ok alone)
    (h1 : marshalV io ns (some f) (.struct tn xn F S) (.struct xv vs) = .ok inside) :
    (alone.map Item.name = inside.map Item.name ↔ tn ∈ keptNames ∨ (tagless xn = true ∧ xv.loc ≠ [])) ∧
      (alone.map Item.name ≠ inside.map Item.name → alone.map Item.name = [⟨[], tn⟩]) := by
  have hn0 : alone.map Item.name = [startName xn xv none tn] := by
    simp only [marshal, marshalV] at h0
    split at h0
    · cases h0
    · split at h0
      · cases h0
      · injection h0 with h0; subst h0; rfl
  have hn1 : inside.map Item.name = [startName xn xv (some f) tn] := by
    simp only [marshalV] at h1
    split at h1
    · cases h1
    · split at h1
      · cases h1
      · injection h1 with h1; subst h1; rfl
  have hk := List.all_eq_true.1 uses_names _ hu
  have ht := List.all_eq_true.1 uses_tagged _ hu
  simp only [beq_iff_eq] at hk
  rw [hn0, hn1]
  simp only [List.cons.injEq, and_true, ne_eq]
  have key : startName xn ⟨[], []⟩ none tn = startName xn ⟨[], []⟩ (some f) tn ↔ tn ∈ keptNames := by
    rw [← List.contains_iff_mem, ← hk]
    simp
  cases xn with
  | none => 
    refine ⟨?_, fun _ => rfl⟩
    simpa [tagless, startName] using key
  | some x =>
    by_cases hx : x.loc = []
    · have hkn : tn ∉ keptNames := by simpa [hx] using ht
      by_cases hv : xv.loc = []
      · refine ⟨?_, fun _ => by simp [startName, hx, hv]⟩
        rw [show startName (some x) xv none tn = startName (some x) ⟨[], []⟩ none tn by simp [startName, hx, hv],
          show startName (some x) xv (some f) tn = startName (some x) ⟨[], []⟩ (some f) tn by simp [startName, hx, hv], key]
        simp [hv]
      · have e : startName (some x) xv none tn = startName (some x) xv (some f) tn := by simp [startName, hx, hv]
        exact ⟨by simp [e, tagless, hx, hv], fun h => absurd e h⟩
    · have hj : joinPrefixed x.pre x.loc ≠ [] := by
        unfold joinPrefixed
        split
        · exact hx
        · simp
      have e : ∀ y : Name, startName (some x) y none tn = startName (some x) y (some f) tn := fun y => by simp [startName, hx, hj]
      exact ⟨by simp [e, ← key], fun h => absurd (e xv) h⟩

/-! ### The name gets lost -/

/-- The text of `NewAdaptationSet()` on its own. -/
def setText : Bytes := b!"<AdaptationSetType></AdaptationSetType>"

theorem setText_is (io : FloatIO) : writeDoc io tAdaptationSetType.sch newAdaptationSet [] false = .ok setText := by krfl

/-- A period with that adaptation set. -/
def setPeriod : Val := push tPeriod.sch (b!"AdaptationSet") newAdaptationSet newPeriod

theorem setPeriod_text (io : FloatIO) : writeDoc io tPeriod.sch setPeriod [] false = .ok b!"<Period><AdaptationSet></AdaptationSet></Period>" := by
  krfl

theorem setText_lost (io : FloatIO) : unmarshalDoc io tPeriod.sch (b!"<Period>" ++ setText ++ b!"</Period>") =
    unmarshalDoc io tPeriod.sch b!"<Period></Period>" := by krfl

/-- C85 is false in general: an adaptation set on its own is not called `AdaptationSet`, and its text in a period is ignored. -/
theorem C85_refuted (io : FloatIO) : ¬ ∀ (a : Val) (t p : Bytes), Typed tAdaptationSetType.sch a →
    writeDoc io tAdaptationSetType.sch a [] false = .ok t →
    writeDoc io tPeriod.sch (push tPeriod.sch (b!"AdaptationSet") a newPeriod) [] false = .ok p →
    p = b!"<Period>" ++ t ++ b!"</Period>" ∨
      unmarshalDoc io tPeriod.sch (b!"<Period>" ++ t ++ b!"</Period>") ≠ unmarshalDoc io tPeriod.sch b!"<Period></Period>" := by
  intro h
  rcases h newAdaptationSet _ _ (zero_typed _ (by decide +kernel)) (setText_is io) (setPeriod_text io) with h | h
  · exact absurd h (by decide)
  · exact h (setText_lost io)

/-! ### Cases -/

/-- The place of a type by its name. -/
def typeAt (tn : Bytes) : Nat := (structs tMPD.sch).findIdx fun q => q.1 == tn

theorem set_element : tAdaptationSetType.sch ∈ elementTypes :=
  List.mem_of_getElem? (i := typeAt (b!"AdaptationSetType")) (by krfl)

theorem splice_element : tSpliceInfoSectionType.sch ∈ elementTypes :=
  List.mem_of_getElem? (i := typeAt (b!"SpliceInfoSectionType")) (by krfl)

theorem rootOk_named {s : Sch} {v : Val} (h : (match s with
    | .struct _ xn _ _ => tagless xn
    | _ => false) = false) : RootOk s v := by
  cases s <;> cases v <;> simp_all [RootOk]

/-- An adaptation set as it is on its own. -/
example (io : FloatIO) (hio : GoFloats io) : ∃ doc w, writeDoc io tAdaptationSetType.sch newAdaptationSet (b!"  ") true = .ok doc ∧
    unmarshalDoc io tAdaptationSetType.sch doc = .ok w ∧ Returned (b!"  ") tAdaptationSetType.sch newAdaptationSet w :=
  C85_built io hio _ (by unfold IsWs; decide) _ _ set_element _ (new_built (by decide +kernel) (by decide +kernel)) (rootOk_named (by decide +kernel))

/-- Adaptation sets and representations are elements with a struct type. -/
theorem set_use : (fSet, b!"AdaptationSetType", none) ∈ elementUses := by decide +kernel

/-- A label has its name in both places, an adaptation set does not. -/
example : b!"LabelType" ∈ keptNames ∧ b!"AdaptationSetType" ∉ keptNames ∧ elementUses.length = 2113 := by decide +kernel

end Verif.Bind
