import Verif.ReadProps
import Verif.XmlPrintProps

/-!
Properties of the types of the manifest, checked for every struct type in it (`structs tMPD.sch`), and of the values that
reading and writing them give: C40 (schema elements can be read), C41 (integers), C46 (attributes with a prefix), and
documents that refute C39 (what was read can be written) and C48 (no repeated attributes).
-/
namespace Verif.Bind

open Verif.Xml

mutual
/-- All struct types in a type: name, `XMLName` field, fields and their types. -/
def structs : Sch → List (Bytes × Option FInfo × List FInfo × List Sch)
  | .ptr s => structs s
  | .slice s => structs s
  | .struct tn xn infos subs => (tn, xn, infos, subs) :: structss subs
  | _ => []
/-- All struct types in some types. -/
def structss : List Sch → List (Bytes × Option FInfo × List FInfo × List Sch)
  | [] => []
  | s :: l => structs s ++ structss l
end

/-! ### C40: schema elements -/

/-- The fields whose elements cannot be read (type, name of the element). -/
def misnamed : List (Bytes × Bytes) :=
  [(b!"MPD", b!"InitializationGroup"), (b!"MPD", b!"InitializationPresentation"), (b!"LatencyType", b!"QualityLatency"),
   (b!"InitializationSetType", b!"GroupLabel"), (b!"Period", b!"GroupLabel"), (b!"AdaptationSetType", b!"GroupLabel"),
   (b!"RepresentationType", b!"GroupLabel"), (b!"SubRepresentationType", b!"GroupLabel"),
   (b!"PreselectionType", b!"GroupLabel")]

/-- The name in the `XMLName` field of a type does not contradict the name in the tag of a field. -/
def nameFits (fi : FInfo) : Sch → Bool
  | .struct _ (some x) _ _ => (x.loc == [] || x.loc == fi.loc) && x.xmlns == []
  | _ => true

/-- The names of the elements of a struct are distinct, and fit unless excepted. -/
def fieldsFit (t : Bytes) (infos : List FInfo) (subs : List Sch) : Bool :=
  decide (infos.Pairwise fun f g => f.mode = .elem → g.mode = .elem → f.loc ≠ g.loc) &&
    (infos.zip subs).all fun p => p.1.mode != .elem || decide ((t, p.1.loc) ∈ misnamed) || nameFits p.1 (core true p.2)

theorem mpd_fit : (structs tMPD.sch).all (fun q => fieldsFit q.1 q.2.2.1 q.2.2.2) = true := by decide +kernel

theorem findIdx?_unique {α} {p : α → Bool} {l : List α} {i : Nat} {a : α} (hi : l[i]? = some a) (hp : p a = true)
    (hu : ∀ j b, l[j]? = some b → p b = true → j = i) : l.findIdx? p = some i := by
  have hlt := lt_of_get hi
  rw [List.findIdx?_eq_some_iff_getElem]
  refine ⟨hlt, ?_, ?_⟩
  · rw [List.getElem?_eq_getElem hlt] at hi; injection hi with hi; rw [hi]; exact hp
  · intro j hj
    have hjl : j < l.length := Nat.lt_trans hj hlt
    intro hc
    have := hu j l[j] (List.getElem?_eq_getElem hjl) hc
    omega

/-- **C40**, except for the fields in `misnamed`: an element whose name is the one declared for a field goes to that field,
and the check of its name against the type of the field succeeds. -/
theorem C40_fields_partial (t : Bytes) (xn : Option FInfo) (infos : List FInfo) (subs : List Sch)
    (hq : (t, xn, infos, subs) ∈ structs tMPD.sch) (i : Nat) (fi : FInfo) (s : Sch) (h1 : infos[i]? = some fi)
    (h2 : subs[i]? = some s) (hm : fi.mode = .elem) (hx : (t, fi.loc) ∉ misnamed) (n : Name) (hn : ElemMatch fi n) :
    elemField infos n = some i ∧
      ∀ tn x is ss, core true s = .struct tn x is ss → checkName x n = .ok () := by
  have h := List.all_eq_true.1 mpd_fit _ hq
  unfold fieldsFit at h
  rw [Bool.and_eq_true, decide_eq_true_eq] at h
  obtain ⟨hp, hz⟩ := h
  constructor
  · unfold elemField
    refine findIdx?_unique h1 ?_ ?_
    · obtain ⟨_, a, b⟩ := hn
      simp only [Bool.and_eq_true, Bool.or_eq_true, beq_iff_eq]
      exact ⟨⟨hm, b.symm⟩, a⟩
    · intro j fj hj hpj
      simp only [Bool.and_eq_true, Bool.or_eq_true, beq_iff_eq] at hpj
      have hil := lt_of_get h1
      have hjl := lt_of_get hj
      rw [List.getElem?_eq_getElem hil] at h1; injection h1 with h1
      rw [List.getElem?_eq_getElem hjl] at hj; injection hj with hj
      have hloc : fj.loc = fi.loc := hpj.2.trans hn.2.1.symm
      rw [List.pairwise_iff_getElem] at hp
      rcases Nat.lt_trichotomy j i with hlt | heq | hlt
      · exact absurd (by rw [hj, h1]; exact hloc) (hp j i hjl hil hlt (by rw [hj]; exact hpj.1.1) (by rw [h1]; exact hm))
      · exact heq
      · exact absurd (by rw [hj, h1]; exact hloc.symm) (hp i j hil hjl hlt (by rw [h1]; exact hm) (by rw [hj]; exact hpj.1.1))
  · intro tn x is ss hc
    have hmem : (fi, s) ∈ infos.zip subs := by
      refine List.mem_of_getElem? (i := i) ?_
      rw [List.getElem?_zip_eq_some]; exact ⟨h1, h2⟩
    have hz := List.all_eq_true.1 hz _ hmem
    dsimp only at hz
    rw [hc] at hz
    simp only [hm, hx, Bool.or_eq_true, decide_eq_true_eq, bne_self_eq_false, Bool.false_eq_true, false_or] at hz
    cases x with
    | none => rfl
    | some x =>
      simp only [nameFits, Bool.and_eq_true, Bool.or_eq_true, beq_iff_eq] at hz
      unfold checkName
      dsimp only
      rw [if_neg, if_neg]
      · exact fun h => h.1 hz.2
      · rintro ⟨a, b⟩
        rcases hz.1 with h | h
        · exact a h
        · exact b (h.trans hn.2.1)

example : ∃ q ∈ structs tMPD.sch, q.1 = b!"Period" ∧ ∃ (i : Nat) (fi : FInfo), q.2.2.1[i]? = some fi ∧ fi.mode = .elem ∧
    (q.1, fi.loc) ∉ misnamed ∧ ElemMatch fi ⟨b!"urn:mpeg:dash:schema:mpd:2011", b!"AdaptationSet"⟩ := by
  have h : (structs tMPD.sch).any (fun q => decide (q.1 = b!"Period") && (List.range q.2.2.1.length).any fun i =>
      match q.2.2.1[i]? with
      | none => false
      | some fi => decide (fi.mode = .elem ∧ (q.1, fi.loc) ∉ misnamed ∧ fi.loc = b!"AdaptationSet" ∧ fi.xmlns = [])) = true := by
    decide +kernel
  obtain ⟨q, hq, h⟩ := List.any_eq_true.1 h
  rw [Bool.and_eq_true, decide_eq_true_eq] at h
  obtain ⟨i, _, hi⟩ := List.any_eq_true.1 h.2
  refine ⟨q, hq, h.1, i, ?_⟩
  split at hi
  · cases hi
  · rename_i fi hfi
    rw [decide_eq_true_eq] at hi
    exact ⟨fi, hfi, hi.1, hi.2.1, hi.1, hi.2.2.1, Or.inr hi.2.2.2⟩

/-- **C40** is false of the fields in `misnamed`: the type of each has another name in its `XMLName` field, and an element
with the declared name is an error. -/
theorem C40_refuted (io : FloatIO) :
    (∀ m ∈ misnamed, ∃ q ∈ structs tMPD.sch, q.1 = m.1 ∧ ∃ p ∈ q.2.2.1.zip q.2.2.2, p.1.mode = .elem ∧ p.1.loc = m.2 ∧
      nameFits p.1 (core true p.2) = false) ∧
    unmarshalDoc io tMPD.sch (b!"<MPD><InitializationGroup>1</InitializationGroup></MPD>") = .error .expectedName ∧
    unmarshalDoc io tMPD.sch (b!"<MPD><Period><GroupLabel>x</GroupLabel></Period></MPD>") = .error .expectedName ∧
    unmarshalDoc io tMPD.sch
      (b!"<MPD><Period><AdaptationSet><GroupLabel>x</GroupLabel></AdaptationSet></Period></MPD>") = .error .expectedName := by
  refine ⟨?_, ?_, ?_, ?_⟩
  · decide +kernel
  all_goals krfl

/-! ### C46: attributes with a prefix -/

/-- The attributes whose tag has a prefix but no namespace (type, local name). -/
def prefixOnly : List (Bytes × Bytes) :=
  [(b!"SegmentListType", b!"show"), (b!"AdaptationSetType", b!"href"), (b!"AdaptationSetType", b!"actuate"),
   (b!"AdaptationSetType", b!"type"), (b!"AdaptationSetType", b!"show")]

theorem mpd_prefixes : (structs tMPD.sch).all (fun q => q.2.2.1.all fun fi =>
    fi.mode != .attr || fi.pre == [] || fi.xmlns != [] && fi.xmlns != xmlnsURL && decide (splitPrefixed
      (joinPrefixed fi.pre fi.loc) = (fi.pre, fi.loc) ∧ fi.loc ≠ []) || decide ((q.1, fi.loc) ∈ prefixOnly)) = true := by
  decide +kernel

/-- **C46**, except for the attributes in `prefixOnly`: an attribute whose tag has a prefix is written with a prefix that
is declared with it or has been declared for the namespace of the tag before. -/
theorem C46_qualified_partial (t : Bytes) (xn : Option FInfo) (infos : List FInfo) (subs : List Sch)
    (hq : (t, xn, infos, subs) ∈ structs tMPD.sch) (fi : FInfo) (hf : fi ∈ infos) (hm : fi.mode = .attr) (hp : fi.pre ≠ [])
    (hx : (t, fi.loc) ∉ prefixOnly) (ns : Ns) (hne : ns.els ≠ []) (hok : PfxOk ns.els) (v : Bytes) :
    fi.xmlns ≠ [] ∧ ∃ p, NCName p ∧ (
      (writeAttr ns ⟨⟨fi.xmlns, joinPrefixed fi.pre fi.loc⟩, v⟩).2 =
        [⟨xmlnsName p, fi.xmlns⟩, ⟨p ++ ch%':' :: fi.loc, v⟩] ∨
      (writeAttr ns ⟨⟨fi.xmlns, joinPrefixed fi.pre fi.loc⟩, v⟩).2 = [⟨p ++ ch%':' :: fi.loc, v⟩] ∧
        getPrefix ns.els fi.xmlns = p) := by
  have h := List.all_eq_true.1 (List.all_eq_true.1 mpd_prefixes _ hq) fi hf
  simp only [hm, hx, hp, bne_self_eq_false, Bool.false_or, Bool.or_eq_true, beq_iff_eq, false_or, Bool.and_eq_true,
    bne_iff_ne, decide_eq_true_eq, or_false, ne_eq, decide_false, Bool.false_eq_true] at h
  obtain ⟨⟨h1, h2⟩, h3, h4⟩ := h
  refine ⟨h1, (createPrefix ns fi.xmlns fi.pre).2.1, (createPrefix_ok ns hne hok fi.xmlns fi.pre).2.1, ?_⟩
  unfold writeAttr
  have hloc : joinPrefixed fi.pre fi.loc ≠ [] := by
    unfold joinPrefixed; rw [if_neg hp]; simp
  dsimp only
  rw [if_neg hloc, if_neg h2, if_pos h1, h3]
  dsimp only
  have key : (createPrefix ns fi.xmlns fi.pre).2.2 = true ∨
      getPrefix ns.els fi.xmlns = (createPrefix ns fi.xmlns fi.pre).2.1 := by
    unfold createPrefix
    split
    · exact Or.inr rfl
    · split
      · rename_i he; exact absurd he hne
      · exact Or.inl rfl
  rcases key with hk | hk
  · left; rw [if_pos hk]; rfl
  · by_cases hb : (createPrefix ns fi.xmlns fi.pre).2.2 = true
    · left; rw [if_pos hb]; rfl
    · right; rw [if_neg hb]; exact ⟨rfl, hk⟩

/-- `default_KID` of a `ContentProtection` meets the hypotheses: the field is found in the table. -/
example : ∃ q ∈ structs tMPD.sch, ∃ fi ∈ q.2.2.1, fi.mode = .attr ∧ fi.pre = b!"cenc" ∧ fi.loc = b!"default_KID" ∧
    (q.1, fi.loc) ∉ prefixOnly := by decide +kernel

/-- Reads a document and writes what was read, without indentation. -/
def rewriteDoc (io : FloatIO) (doc : Bytes) : Option Bytes :=
  match unmarshalDoc io tMPD.sch doc with
  | .error _ => none
  | .ok v =>
    match marshal io tMPD.sch v with
    | .error _ => none
    | .ok items =>
      match encode [] [] items with
      | .error _ => none
      | .ok b => some b

/-- **C46** is false of the attributes in `prefixOnly`: they have no namespace, and they are written without a prefix. -/
theorem C46_refuted (io : FloatIO) :
    (∀ m ∈ prefixOnly, ∃ q ∈ structs tMPD.sch, q.1 = m.1 ∧ ∃ fi ∈ q.2.2.1, fi.mode = .attr ∧ fi.loc = m.2 ∧ fi.pre ≠ [] ∧
      fi.xmlns = []) ∧
    rewriteDoc io (b!"<MPD xmlns:xlink='http://www.w3.org/1999/xlink'><Period xlink:href='p'><AdaptationSet xlink:href='a'/></Period></MPD>") =
      some (b!"<MPD profiles=\"\"><Period xmlns:xlink=\"http://www.w3.org/1999/xlink\" xlink:href=\"p\"><AdaptationSet href=\"a\"></AdaptationSet></Period></MPD>") := by
  refine ⟨by decide +kernel, ?_⟩
  krfl

/-! ### C39 and C48 -/

/-- **C39** is false: this document is read, and writing what was read panics, because the attributes of an embedded pointer
that has not been set are required. -/
theorem C39_refuted (io : FloatIO) : ∃ v,
    unmarshalDoc io tMPD.sch
      (b!"<MPD><Period><EventStream><Event><ReplacePresentation/></Event></EventStream></Period></MPD>") = .ok v ∧
    marshal io tMPD.sch v = .error .panic := by
  have h : (match unmarshalDoc io tMPD.sch
      (b!"<MPD><Period><EventStream><Event><ReplacePresentation/></Event></EventStream></Period></MPD>") with
      | .error _ => none
      | .ok v => some (marshal io tMPD.sch v)) = some (.error .panic) := by krfl
  split at h
  · cases h
  · rename_i v hv
    injection h with h
    exact ⟨v, hv, h⟩

/-- The names of the attributes in the start tags of a document. -/
def tagNames (doc : Bytes) : List (List Name) :=
  (docTokens doc).filterMap fun p =>
    match p.tok with
    | .startElement _ as => some (as.map (·.name))
    | _ => none

/-- **C48** is false: a content identifier with its namespace declared on the element is written with the declaration
twice, which no XML parser accepts. -/
theorem C48_refuted (io : FloatIO) : ∃ out,
    rewriteDoc io (b!"<MPD><Period><AssetIdentifier schemeIdUri='u'><scte214:ContentIdentifier xmlns:scte214='urn:scte:dash:scte214-extensions' type='URI' value='v'/></AssetIdentifier></Period></MPD>") =
      some out ∧
    ¬ ∀ l ∈ tagNames out, l.Nodup := by
  refine ⟨b!"<MPD profiles=\"\"><Period><AssetIdentifier schemeIdUri=\"u\"><scte214:ContentIdentifier xmlns:scte214=\"urn:scte:dash:scte214-extensions\" type=\"URI\" value=\"v\" xmlns:scte214=\"urn:scte:dash:scte214-extensions\"></scte214:ContentIdentifier></AssetIdentifier></Period></MPD>", ?_, ?_⟩
  · krfl
  · decide +kernel

end Verif.Bind
