import Verif.Scte
import Verif.Readable

/-!
C84: SCTE-35 in manifests that were read, in both of the forms in which it is carried (`/repo/mpd/scte35.go` 41-61).
-/
namespace Verif.Bind

open Verif Verif.Xml Verif.FloatText

/-! ### Specification -/

mutual
/-- The captured attributes, each with whether its element is one that takes its name from the document (SCTE-35). -/
def capAttrs (t : Bool) : Sch → Val → List (Bool × Attr)
  | .ptr s, .ptr (some v) => capAttrs t s v
  | .slice s, .slice l => l.flatMap fun v => capAttrs t s v
  | .attr, .attr a => [(t, a)]
  | .struct _ xn _ subs, .struct _ vs => capAttrss (tagless xn) subs vs
  | _, _ => []
/-- The same for all fields. -/
def capAttrss (t : Bool) : List Sch → List Val → List (Bool × Attr)
  | s :: ss, v :: vs => capAttrs t s v ++ capAttrss t ss vs
  | _, _ => []
end

/-- A captured attribute: one without a prefix; or, on an element of SCTE-35, `xmlns="u"`; or `xmlns:p="w"` for a pair
`(p, w)` of `X`. -/
def AttrCarried (X : Pairs) (u : Bytes) (x : Bool × Attr) : Prop :=
  (x.2.name.space = [] ∧ (x.2.name.loc = xmlnsPrefix → x.1 = true ∧ x.2.value = u)) ∨
  (x.2.name.space = xmlnsURL ∧ (x.2.name.loc, x.2.value) ∈ X)

instance (X : Pairs) (u : Bytes) (x : Bool × Attr) : Decidable (AttrCarried X u x) := by unfold AttrCarried; infer_instance

/-- The SCTE-35 elements are all in the namespace `u`, and other attributes than those of SCTE-35 have no prefix and declare
only the pairs of `X`. -/
structure Carried (X : Pairs) (u : Bytes) (s : Sch) (v : Val) : Prop where
  names : ∀ n ∈ xnames s v, n.space = u ∧ NCName n.loc
  attrs : ∀ x ∈ capAttrs false s v, AttrCarried X u x

/-! ### Proof -/

theorem capAttrss_get : ∀ (S : List Sch) (vs : List Val) (t : Bool) (i : Nat) (s : Sch) (v : Val),
    S[i]? = some s → vs[i]? = some v → ∀ x ∈ capAttrs t s v, x ∈ capAttrss t S vs
  | [], _, t, i, s, v, h, _ => by simp at h
  | _ :: _, [], t, i, s, v, _, h => by simp at h
  | s :: S, v :: vs, t, i, s', v', h1, h2 => by
    intro x hx
    simp only [capAttrss, List.mem_append]
    cases i with
    | zero => simp at h1 h2; subst h1; subst h2; exact .inl hx
    | succ i => simp at h1 h2; exact .inr (capAttrss_get S vs t i s' v' h1 h2 x hx)

theorem anyNss_of (X : Pairs) (n : Name) : ∀ (l : List Attr) (D : Pairs),
    (∀ a ∈ l, (a.name.space = [] ∧ (a.name.loc = xmlnsPrefix → a.value = n.space ∧ n.space ≠ [] ∧ (splitPrefixed n.loc).1 = [])) ∨
      (a.name.space = xmlnsURL ∧ (a.name.loc, a.value) ∈ X)) → AnyNss X D n l
  | [], D, _ => by simp [AnyNss]
  | a :: l, D, h => by
    unfold AnyNss
    exact ⟨(h a (by simp)).imp_right .inl, anyNss_of X n l _ fun b hb => h b (by simp [hb])⟩

mutual
theorem carried_ns (X : Pairs) (u : Bytes) (hu : u ≠ []) (hok : SpaceOk u) (L : List Bytes) : ∀ (s : Sch) (D : Pairs) (ns : Bytes)
    (fi : Option FInfo) (t : Bool) (v : Val), s.rt L = true → s.unnamed = true ∨ (s.outer fi = true ∧ (ns = [] ∨ ns = u)) →
    Typed s v → (∀ n ∈ xnames s v, n.space = u ∧ NCName n.loc) → (∀ x ∈ capAttrs t s v, AttrCarried X u x) → NsOk X D ns fi s v
  | .ptr s, D, ns, fi, t, v, hr, ho, ht, h1, h2 => by
    cases v with
    | ptr o =>
      cases o with
      | none => simp [NsOk]
      | some v =>
        simp only [xnames, capAttrs, NsOk, Typed, Sch.rt, Sch.outer, Sch.unnamed] at h1 h2 ht hr ho ⊢
        exact carried_ns X u hu hok L s D ns fi t v hr ho ht h1 h2
    | _ => simp [Typed] at ht
  | .slice s, D, ns, fi, t, v, hr, ho, ht, h1, h2 => by
    cases v with
    | slice l =>
      simp only [xnames, capAttrs, NsOk, Typed, Sch.rt, Sch.outer, Sch.unnamed, List.mem_flatMap] at h1 h2 ht hr ho ⊢
      exact fun v hv => carried_ns X u hu hok L s D ns fi t v hr ho (ht v hv) (fun n hn => h1 n ⟨v, hv, hn⟩)
        (fun x hx => h2 x ⟨v, hv, hx⟩)
    | _ => simp [Typed] at ht
  | .struct tn xn F S, D, ns, fi, t, v, hr, ho, ht, h1, h2 => by
    cases v with
    | struct xv vs =>
      simp only [xnames, capAttrs, NsOk, Typed, Sch.rt, Sch.outer, Sch.unnamed, Bool.and_eq_true, Bool.or_eq_true, List.mem_append]
        at h1 h2 ht hr ho ⊢
      have hst := StructRt.of hr.1.1
      have hname : tagless xn = true → startName xn xv fi tn = xv ∧ xv.space = u ∧ NCName xv.loc := by
        intro hx
        have := h1 xv (.inl (by simp [hx]))
        refine ⟨startName_tagless hx ?_, this⟩
        intro h
        rw [h] at this
        exact absurd this.2 (by decide)
      have hin : ns = [] ∨ ns = u ∨ tagless xn = false := by
        rcases ho with ho | ho
        · exact .inr (.inr (by simpa using ho.1))
        · exact ho.2.elim .inl fun h => .inr (.inl h)
      refine ⟨fun h => ?_, ?_, ?_⟩
      · obtain ⟨e, e1, -⟩ := hname h
        rw [e, e1]
        refine ⟨?_, hok⟩
        rcases hin with h' | h' | h'
        · exact .inl h'
        · exact .inr h'.symm
        · rw [h] at h'; cases h'
      · intro i f l g1 g2 g3
        obtain ⟨s, hs⟩ := get_of_lt (l := S) (i := i) (by have := hst.len; have := lt_of_get g1; omega)
        have hm := capAttrss_get S vs (tagless xn) i s _ hs g3
        rw [fieldRt_any (hst.rt i f s g1 hs) g2] at hm
        refine anyNss_of X _ _ _ fun a ha => ?_
        have ha' : (tagless xn, a) ∈ capAttrs (tagless xn) (.slice .attr) (.slice l) := by
          unfold attrsIn at ha
          rw [List.mem_filterMap] at ha
          obtain ⟨w, hw, e⟩ := ha
          simp only [capAttrs, List.mem_flatMap]
          refine ⟨w, hw, ?_⟩
          cases w <;> simp at e
          subst e
          simp [capAttrs]
        refine (h2 _ (hm _ ha')).imp_left fun h => ⟨h.1, fun hl => ?_⟩
        obtain ⟨k1, k2⟩ := h.2 hl
        obtain ⟨e, e1, e2⟩ := hname k1
        rw [e, e1, splitPrefixed_nc e2]
        exact ⟨k2, hu, rfl⟩
      · refine carrieds_ns X u hu hok L S _ _ F (tagless xn) vs hr.2 ?_ ht.2 (fun n hn => h1 n (.inr hn)) h2
        rcases ho with ho | ⟨ho, hns⟩
        · exact .inl ho.2
        · rcases ho with ho | ⟨ho, ho'⟩
          · exact .inl ho.2
          · refine .inr ⟨ho', ?_⟩
            cases hx : tagless xn with
            | true =>
              obtain ⟨e, e1, -⟩ := hname hx
              rw [e]
              exact .inr e1
            | false =>
              rw [startName_tagged hx]
              simp only [hx, Bool.false_eq_true, false_or, beq_iff_eq] at ho
              exact .inl ho
    | _ => simp [Typed] at ht
  | .simple k, D, ns, fi, t, v, _, _, _, _, _ => by simp [NsOk]
  | .attr, D, ns, fi, t, v, _, _, _, _, _ => by simp [NsOk]
  | .name, D, ns, fi, t, v, _, _, _, _, _ => by simp [NsOk]
  | .bad _, D, ns, fi, t, v, _, _, _, _, _ => by simp [NsOk]
theorem carrieds_ns (X : Pairs) (u : Bytes) (hu : u ≠ []) (hok : SpaceOk u) (L : List Bytes) : ∀ (S : List Sch) (D : Pairs)
    (ns : Bytes) (F : List FInfo) (t : Bool) (vs : List Val), rts L S = true →
    unnameds S = true ∨ (outers F S = true ∧ (ns = [] ∨ ns = u)) → Typeds S vs → (∀ n ∈ xnamess S vs, n.space = u ∧ NCName n.loc) →
    (∀ x ∈ capAttrss t S vs, AttrCarried X u x) → NsOks X D ns F S vs
  | [], D, ns, F, t, vs, _, _, _, _, _ => by cases F <;> simp [NsOks]
  | s :: S, D, ns, F, t, vs, hr, ho, ht, h1, h2 => by
    cases F with
    | nil => simp [NsOks]
    | cons f F =>
      cases vs with
      | nil => simp [NsOks]
      | cons v vs =>
        simp only [xnamess, capAttrss, NsOks, Typeds, rts, outers, unnameds, Bool.and_eq_true, List.mem_append] at h1 h2 ht hr ho ⊢
        refine ⟨?_, carrieds_ns X u hu hok L S D ns F t vs hr.2 (ho.imp (·.2) fun h => ⟨h.1.2, h.2⟩) ht.2
          (fun n hn => h1 n (.inr hn)) fun x hx => h2 x (.inr hx)⟩
        rcases ht.1 with h | h
        · cases v <;> simp [Val.isAbsent] at h
          cases s <;> simp [NsOk]
        · exact carried_ns X u hu hok L s D ns (some f) t v hr.1 (ho.imp (·.1) fun h => ⟨h.1.1, h.2⟩) h
            (fun n hn => h1 n (.inl hn)) fun x hx => h2 x (.inl hx)
end

/-! ### Theorems -/

/-- What is carried in this way meets the conditions on namespaces of C30. -/
theorem C84_names (X : Pairs) (u : Bytes) (hu : u ≠ []) (hok : SpaceOk u) (v : Val) (ht : Typed tMPD.sch v)
    (hc : Carried X u tMPD.sch v) : NsOk X [] [] none tMPD.sch v :=
  carried_ns X u hu hok mpdLocs _ _ _ _ _ _ mpd_rt (.inr ⟨mpd_outer, .inl rfl⟩) ht hc.names hc.attrs

/-- **C84**, in part: a manifest that was read, whose SCTE-35 elements are in one namespace, declared in whatever way, is written
and read back as the same, with any indentation; each SCTE-35 element keeps its name and its namespace.  The conditions on the
rest are those of C49. -/
theorem C84_forms_partial (io : FloatIO) (hio : GoFloats io) (doc : Bytes) (v : Val) (h : unmarshalDoc io tMPD.sch doc = .ok v)
    (hs : Settled tMPD.sch v) (X : Pairs) (hX : extOk mpdPairs X mpdLocs = true) (u : Bytes) (hu : u ≠ []) (hok : SpaceOk u)
    (hc : Carried X u tMPD.sch v) (indent : Bytes) (hind : IsWs indent) (hdr : Bool) :
    ∃ doc' w, writeDoc io tMPD.sch v indent hdr = .ok doc' ∧ unmarshalDoc io tMPD.sch doc' = .ok w ∧
      Returned indent tMPD.sch v w ∧ xnames tMPD.sch w = xnames tMPD.sch v := by
  obtain ⟨doc', w, h1, h2, h3⟩ := C49_rewrite_partial io hio doc v h hs X hX
    (C84_names X u hu hok v (unmarshalDoc_typed io _ _ _ mpd_ok h) hc) indent hind hdr
  refine ⟨doc', w, h1, h2, h3, ?_⟩
  obtain ⟨x, h4, h5, -⟩ := h3
  rw [loose_xnames _ x w h5, back_xnames _ v x h4 fun n hn => ?_]
  obtain ⟨a1, a2⟩ := hc.names n hn
  refine ⟨by rw [a1]; exact hu, ?_⟩
  intro h
  rw [h] at a2
  exact absurd a2 (by decide)

/-! ### The two forms -/

/-- The namespace that older packagers use (`SCTE35Namespace2016`, `/repo/mpd/scte35.go` 67-70). -/
def scte35NS2016 : Bytes := b!"http://www.scte.org/schemas/35/2016"

theorem scte2016_ok : SpaceOk scte35NS2016 := by
  intro _
  decide +kernel

/-- The prefix `scte35` for either can be used. -/
theorem scte_ext : extOk mpdPairs [(b!"scte35", scte35NS)] mpdLocs = true ∧
    extOk mpdPairs [(b!"scte35", scte35NS2016)] mpdLocs = true := by decide +kernel

/-- The form that AWS MediaTailor and others use, with a prefix and the older namespace. -/
@[irreducible] def directDoc : Bytes := b!"<MPD xmlns=\"urn:mpeg:dash:schema:mpd:2011\" profiles=\"p\"><Period><EventStream schemeIdUri=\"urn:scte:scte35:2013:xml\"><Event duration=\"5\"><scte35:SpliceInfoSection xmlns:scte35=\"http://www.scte.org/schemas/35/2016\" tier=\"4095\"><scte35:TimeSignal><scte35:SpliceTime ptsTime=\"7\"/></scte35:TimeSignal></scte35:SpliceInfoSection></Event></EventStream></Period></MPD>"

/-- Its value. -/
@[irreducible] def directVal : Val := valOf exIO directDoc

/-- The form that SCTE 214-1 prescribes, with a default namespace and an attribute that the library does not know. -/
@[irreducible] def signalDoc : Bytes := b!"<MPD xmlns=\"urn:mpeg:dash:schema:mpd:2011\" profiles=\"p\"><Period><EventStream schemeIdUri=\"urn:scte:scte35:2013:xml\"><Event><Signal xmlns=\"http://www.scte.org/schemas/35\"><SpliceInfoSection xmlns=\"http://www.scte.org/schemas/35\" other=\"x\"><SpliceNull/></SpliceInfoSection></Signal></Event></EventStream></Period></MPD>"

/-- Its value. -/
@[irreducible] def signalVal : Val := valOf exIO signalDoc

theorem directVal_any (io : FloatIO) : unmarshalDoc io tMPD.sch directDoc = .ok directVal := by krfl
theorem signalVal_any (io : FloatIO) : unmarshalDoc io tMPD.sch signalDoc = .ok signalVal := by krfl

theorem directVal_settled : settledB tMPD.sch directVal = true := by decide +kernel
theorem signalVal_settled : settledB tMPD.sch signalVal = true := by decide +kernel

theorem directVal_carried : Carried [(b!"scte35", scte35NS2016)] scte35NS2016 tMPD.sch directVal where
  names := by decide +kernel
  attrs := by decide +kernel

theorem signalVal_carried : Carried [] scte35NS tMPD.sch signalVal where
  names := by decide +kernel
  attrs := by decide +kernel

/-- Three SCTE-35 elements each, and one and two captured attributes. -/
example : (xnames tMPD.sch directVal).length = 3 ∧ (xnames tMPD.sch signalVal).length = 3 ∧
    (capAttrs false tMPD.sch directVal).length = 1 ∧ (capAttrs false tMPD.sch signalVal).length = 2 := by decide +kernel

example (io : FloatIO) (hio : GoFloats io) (indent : Bytes) (hind : IsWs indent) (hdr : Bool) :
    ∃ doc' w, writeDoc io tMPD.sch directVal indent hdr = .ok doc' ∧ unmarshalDoc io tMPD.sch doc' = .ok w ∧
      Returned indent tMPD.sch directVal w ∧ xnames tMPD.sch w = xnames tMPD.sch directVal :=
  C84_forms_partial io hio directDoc directVal (directVal_any io) (settledB_sound _ _ directVal_settled) _ scte_ext.2 _
    (by decide) scte2016_ok directVal_carried indent hind hdr

example (io : FloatIO) (hio : GoFloats io) (indent : Bytes) (hind : IsWs indent) (hdr : Bool) :
    ∃ doc' w, writeDoc io tMPD.sch signalVal indent hdr = .ok doc' ∧ unmarshalDoc io tMPD.sch doc' = .ok w ∧
      Returned indent tMPD.sch signalVal w ∧ xnames tMPD.sch w = xnames tMPD.sch signalVal :=
  C84_forms_partial io hio signalDoc signalVal (signalVal_any io) (settledB_sound _ _ signalVal_settled) [] vodVal_ok.2.2.2.2 _
    (by decide) scte35_ok signalVal_carried indent hind hdr

/-! ### Two namespaces -/

/-- A section of the older namespace in a signal of the current one, with an element of the current one. -/
@[irreducible] def mixDoc : Bytes := b!"<MPD xmlns=\"urn:mpeg:dash:schema:mpd:2011\" profiles=\"p\"><Period><EventStream schemeIdUri=\"urn:scte:scte35:2013:xml\"><Event><Signal xmlns=\"http://www.scte.org/schemas/35\"><SpliceInfoSection xmlns=\"http://www.scte.org/schemas/35/2016\"><s:TimeSignal xmlns:s=\"http://www.scte.org/schemas/35\"/></SpliceInfoSection></Signal></Event></EventStream></Period></MPD>"

/-- Its value. -/
@[irreducible] def mixVal : Val := valOf exIO mixDoc

/-- How it is written. -/
@[irreducible] def mixOut : Bytes := b!"<MPD xmlns=\"urn:mpeg:dash:schema:mpd:2011\" profiles=\"p\"><Period><EventStream schemeIdUri=\"urn:scte:scte35:2013:xml\"><Event presentationTime=\"0\"><Signal xmlns=\"http://www.scte.org/schemas/35\"><SpliceInfoSection xmlns=\"http://www.scte.org/schemas/35/2016\"><TimeSignal></TimeSignal></SpliceInfoSection></Signal></Event></EventStream></Period></MPD>"

/-- What is read then. -/
@[irreducible] def mixBack : Val := valOf exIO mixOut

theorem mixVal_any (io : FloatIO) : unmarshalDoc io tMPD.sch mixDoc = .ok mixVal := by krfl
theorem mixVal_out (io : FloatIO) : writeDoc io tMPD.sch mixVal [] false = .ok mixOut := by krfl
theorem mixBack_any (io : FloatIO) : unmarshalDoc io tMPD.sch mixOut = .ok mixBack := by krfl
theorem mix_names : xnames tMPD.sch mixBack ≠ xnames tMPD.sch mixVal := by decide +kernel

/-- C84 is false of documents that mix namespaces: the printer takes the default namespace of the signal to be that of the
elements in the section, which has one of its own, so that the `TimeSignal` changes its namespace. -/
theorem C84_mixed_refuted (io : FloatIO) : ¬ ∀ (doc : Bytes) (v : Val), unmarshalDoc io tMPD.sch doc = .ok v →
    ∃ doc' w, writeDoc io tMPD.sch v [] false = .ok doc' ∧ unmarshalDoc io tMPD.sch doc' = .ok w ∧
      xnames tMPD.sch w = xnames tMPD.sch v := by
  intro h
  obtain ⟨doc', w, h1, h2, h3⟩ := h mixDoc mixVal (mixVal_any io)
  rw [mixVal_out io] at h1
  injection h1 with h1
  subst h1
  rw [mixBack_any io] at h2
  injection h2 with h2
  subst h2
  exact mix_names h3

end Verif.Bind
