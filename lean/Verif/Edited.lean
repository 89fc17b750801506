import Verif.Build
import Verif.Carried

/-!
C89: a manifest that was read from a document and then changed in places is written and read back.
-/
namespace Verif.Bind

open Verif Verif.Xml Verif.FloatText

/-! ### Specification: changes that a program makes -/

/-- `w` is `v` after changes in places: values are replaced by values that a program builds (`Built`), pointers are set to
nil, members of lists are removed, repeated, put in another order, added or changed.  What is not named
stays, in particular attributes and elements that were captured.  Not among the changes: assigning an
`innerxml` field, an `any,attr` field, or the `XMLName` of a value that exists. -/
inductive Edit : Option FInfo → Sch → Val → Val → Prop
  | same {fi s v} : Edit fi s v v
  | next {fi s v w u} : Edit fi s v w → Edit fi s w u → Edit fi s v u
  | put {fi s v w} : Built fi s w → Edit fi s v w
  | clear {fi s v} : Edit fi (.ptr s) v (.ptr none)
  | pick {fi s l m} : (∀ v ∈ m, v ∈ l) → Edit fi (.slice s) (.slice l) (.slice m)
  | add {fi s l v} : Built fi s v → v.isNil = false → Edit fi (.slice s) (.slice l) (.slice (l ++ [v]))
  | item {fi s l m v w} : Edit fi s v w → w.isNil = false → Edit fi (.slice s) (.slice (l ++ v :: m)) (.slice (l ++ w :: m))
  | deref {fi s v w} : Edit fi s v w → w.isNil = false → Edit fi (.ptr s) (.ptr (some v)) (.ptr (some w))
  | field {fi tn xn infos subs xv vs f s v w} (i : Nat) : infos[i]? = some f → subs[i]? = some s → f.mode ≠ .innerxml →
      f.mode ≠ .anyAttr → vs[i]? = some v → Edit (some f) s v w →
      Edit fi (.struct tn xn infos subs) (.struct xv vs) (.struct xv (vs.set i w))

/-! ### Proof -/

/-- What C30 asks for, in its place. -/
structure Held (X D : Pairs) (ns : Bytes) (fi : Option FInfo) (s : Sch) (v : Val) : Prop where
  ty : Typed s v
  fine : Fine fi s v
  xn : ScteNames (xnames s v)
  ns : NsOk X D ns fi s v

/-- The place of a value: its type is one of those of the manifest, and the namespace around it one of those in which the
elements that take their names from `XMLName` can be. -/
structure Place (L : List Bytes) (ns : Bytes) (fi : Option FInfo) (s : Sch) : Prop where
  rt : s.rt L = true
  outer : s.outer fi = true
  ns : s.unnamed = true ∨ ns = [] ∨ ns = scte35NS

theorem anyDecls_set : ∀ (infos : List FInfo) (vs : List Val) (i : Nat) (f : FInfo) (w : Val), infos[i]? = some f →
    f.mode ≠ .anyAttr → anyDecls infos (vs.set i w) = anyDecls infos vs
  | [], vs, i, f, w, h, _ => by simp at h
  | g :: infos, [], i, f, w, _, _ => by simp
  | g :: infos, v :: vs, 0, f, w, h, hm => by
    simp at h; subst h
    cases w <;> cases v <;> simp [anyDecls, hm]
  | g :: infos, v :: vs, i + 1, f, w, h, hm => by
    simp at h
    have ih := anyDecls_set infos vs i f w h hm
    cases v <;> simp [anyDecls, ih]

theorem nsOks_get (X D : Pairs) (ns : Bytes) : ∀ (infos : List FInfo) (subs : List Sch) (vs : List Val) (i : Nat) (f : FInfo)
    (s : Sch) (v : Val), NsOks X D ns infos subs vs → infos[i]? = some f → subs[i]? = some s → vs[i]? = some v →
    NsOk X D ns (some f) s v
  | fi :: fis, s :: ss, w :: vs, i, f, s', v, h, h1, h2, h3 => by
    simp only [NsOks] at h
    cases i with
    | zero => simp at h1 h2 h3; subst h1; subst h2; subst h3; exact h.1
    | succ i => simp at h1 h2 h3; exact nsOks_get X D ns fis ss vs i f s' v h.2 h1 h2 h3
  | [], _, _, i, _, _, _, _, h1, _, _ => by simp at h1
  | _ :: _, [], _, i, _, _, _, _, _, h2, _ => by simp at h2
  | _ :: _, _ :: _, [], i, _, _, _, _, _, _, h3 => by simp at h3

theorem nsOks_set (X D : Pairs) (ns : Bytes) : ∀ (infos : List FInfo) (subs : List Sch) (vs : List Val) (i : Nat) (f : FInfo)
    (s : Sch) (v : Val), NsOks X D ns infos subs vs → infos[i]? = some f → subs[i]? = some s → NsOk X D ns (some f) s v →
    NsOks X D ns infos subs (vs.set i v)
  | fi :: fis, s :: ss, w :: vs, i, f, s', v, h, h1, h2, hv => by
    simp only [NsOks] at h
    cases i with
    | zero => simp at h1 h2; subst h1; subst h2; simp only [List.set_cons_zero, NsOks]; exact ⟨hv, h.2⟩
    | succ i =>
      simp at h1 h2
      simp only [List.set_cons_succ, NsOks]
      exact ⟨h.1, nsOks_set X D ns fis ss vs i f s' v h.2 h1 h2 hv⟩
  | [], _, _, i, _, _, _, _, h1, _, _ => by simp at h1
  | _ :: _, [], _, i, _, _, _, _, _, h2, _ => by simp at h2
  | _ :: _, _ :: _, [], i, _, _, _, _, _, _, _ => by simp [NsOks]

theorem outers_get : ∀ (infos : List FInfo) (subs : List Sch) (i : Nat) (f : FInfo) (s : Sch), outers infos subs = true →
    infos[i]? = some f → subs[i]? = some s → s.outer (some f) = true
  | f :: fs, s :: ss, i, f', s', h, h1, h2 => by
    simp only [outers, Bool.and_eq_true] at h
    cases i with
    | zero => simp at h1 h2; subst h1; subst h2; exact h.1
    | succ i => simp at h1 h2; exact outers_get fs ss i f' s' h.2 h1 h2
  | [], _, i, _, _, _, h1, _ => by simp at h1
  | _ :: _, [], i, _, _, _, _, h2 => by simp at h2

theorem unnameds_get : ∀ (subs : List Sch) (i : Nat) (s : Sch), unnameds subs = true → subs[i]? = some s → s.unnamed = true
  | s :: ss, i, s', h, h1 => by
    simp only [unnameds, Bool.and_eq_true] at h
    cases i with
    | zero => simp at h1; subst h1; exact h.1
    | succ i => simp at h1; exact unnameds_get ss i s' h.2 h1
  | [], i, _, _, h1 => by simp at h1

mutual
theorem unnamed_outer (fi : Option FInfo) : ∀ s : Sch, s.unnamed = true → s.outer fi = true
  | .ptr s, h => by simp only [Sch.unnamed, Sch.outer] at h ⊢; exact unnamed_outer fi s h
  | .slice s, h => by simp only [Sch.unnamed, Sch.outer] at h ⊢; exact unnamed_outer fi s h
  | .struct tn xn F S, h => by
    simp only [Sch.unnamed] at h
    simp only [Sch.outer, h, Bool.true_or]
  | .simple _, _ => by simp [Sch.outer]
  | .attr, _ => by simp [Sch.outer]
  | .name, _ => by simp [Sch.outer]
  | .bad _, _ => by simp [Sch.outer]
end

/-- The place of a field. -/
theorem Place.field {L ns fi tn xn infos subs xv vs f s} {i : Nat} (h : Place L ns fi (.struct tn xn infos subs))
    (hx : ScteNames (xnames (.struct tn xn infos subs) (.struct xv vs))) (h1 : infos[i]? = some f) (h2 : subs[i]? = some s) :
    Place L (startName xn xv fi tn).space (some f) s := by
  have hr := h.rt
  have ho := h.outer
  simp only [Sch.rt, Bool.and_eq_true] at hr
  simp only [Sch.outer, Bool.or_eq_true, Bool.and_eq_true, Bool.not_eq_true'] at ho
  simp only [xnames, scteNames_append] at hx
  refine ⟨rts_get L subs hr.2 i s h2, ?_, ?_⟩
  · rcases ho with ho | ho
    · exact unnamed_outer _ _ (unnameds_get _ i s ho.2 h2)
    · exact outers_get _ _ i f s ho.2 h1 h2
  · rcases ho with ho | ho
    · exact .inl (unnameds_get _ i s ho.2 h2)
    · right
      cases ht : tagless xn with
      | true =>
        have := hx.1 xv (by simp [ht])
        rw [startName_tagless ht this.2]
        exact .inr this.1
      | false =>
        rw [startName_tagged ht]
        simp only [ht, Bool.false_eq_true, false_or, beq_iff_eq] at ho
        exact .inl ho.1

/-- What a program builds can be put in any place. -/
theorem Built.held {fi s v} (h : Built fi s v) (X : Pairs) {L : List Bytes} {ns : Bytes} (hp : Place L ns fi s) (D : Pairs) :
    Held X D ns fi s v := by
  have hs := h.sound
  refine ⟨hs.ty, hs.fine, hs.xn, ?_⟩
  rcases hp.ns with hu | hu
  · exact plain_ns X L s D ns fi v hp.rt hs.ty (unnamed_xnames s v hu) hs.fo
  · exact scte_ns X L s D ns fi v hp.rt hp.outer hu hs.ty hs.xn hs.fo

theorem held_slice {X D : Pairs} {ns : Bytes} {fi : Option FInfo} {s : Sch} {l : List Val} :
    Held X D ns fi (.slice s) (.slice l) ↔ ∀ v ∈ l, v.isNil = false ∧ Held X D ns fi s v := by
  constructor
  · intro h v hv
    have h1 := h.ty
    have h2 := h.fine
    have h3 := h.xn
    have h4 := h.ns
    simp only [Typed] at h1
    simp only [Fine] at h2
    simp only [xnames, scteNames_flatMap] at h3
    simp only [NsOk] at h4
    exact ⟨(h2 v hv).1, h1 v hv, (h2 v hv).2, h3 v hv, h4 v hv⟩
  · intro h
    refine ⟨?_, ?_, ?_, ?_⟩
    · simp only [Typed]; exact fun v hv => (h v hv).2.ty
    · simp only [Fine]; exact fun v hv => ⟨(h v hv).1, (h v hv).2.fine⟩
    · simp only [xnames, scteNames_flatMap]; exact fun v hv => (h v hv).2.xn
    · simp only [NsOk]; exact fun v hv => (h v hv).2.ns

/-- Assigning a field. -/
theorem Held.set {X D ns fi tn xn infos subs xv vs f s v} (i : Nat) (h : Held X D ns fi (.struct tn xn infos subs) (.struct xv vs))
    (h1 : infos[i]? = some f) (h2 : subs[i]? = some s) (hm : f.mode ≠ .innerxml) (ha : f.mode ≠ .anyAttr)
    (hv : Held X (anyDecls infos vs ++ D) (startName xn xv fi tn).space (some f) s v) :
    Held X D ns fi (.struct tn xn infos subs) (.struct xv (vs.set i v)) := by
  have hty := h.ty
  have hfi := h.fine
  have hxn := h.xn
  have hns := h.ns
  simp only [Typed] at hty
  simp only [Fine] at hfi
  simp only [xnames, scteNames_append] at hxn
  simp only [NsOk] at hns
  have hF := fines_set infos subs vs i f s v hfi.2.2 h1 h2 hm (typed_present s v hv.ty) hv.fine
  have hne : ∀ (j : Nat) (g : FInfo), infos[j]? = some g → g.mode = .anyAttr → i ≠ j := by
    rintro j g hj hg rfl
    rw [h1] at hj
    injection hj with hj
    subst hj
    exact ha hg
  refine ⟨?_, ?_, ?_, ?_⟩
  · simp only [Typed]
    exact ⟨uniform_present _ _ (fines_present _ _ _ hF), typeds_set subs vs i s v hty.2 h2 hv.ty⟩
  · simp only [Fine]
    refine ⟨hfi.1, ?_, hF⟩
    intro j g l hj hg hl
    rw [List.getElem?_set_ne (hne j g hj hg)] at hl
    exact hfi.2.1 j g l hj hg hl
  · simp only [xnames, scteNames_append]
    exact ⟨hxn.1, xnamess_set subs vs i s v hxn.2 h2 hv.xn⟩
  · simp only [NsOk]
    refine ⟨hns.1, ?_, ?_⟩
    · intro j g l hj hg hl
      rw [List.getElem?_set_ne (hne j g hj hg)] at hl
      exact hns.2.1 j g l hj hg hl
    · rw [anyDecls_set infos vs i f v h1 ha]
      exact nsOks_set _ _ _ infos subs vs i f s v hns.2.2 h1 h2 hv.ns

/-- What a field holds. -/
theorem Held.get {X D ns fi tn xn infos subs xv vs f s v} (i : Nat) (h : Held X D ns fi (.struct tn xn infos subs) (.struct xv vs))
    (h1 : infos[i]? = some f) (h2 : subs[i]? = some s) (h3 : vs[i]? = some v) (hm : f.mode ≠ .innerxml) :
    Held X (anyDecls infos vs ++ D) (startName xn xv fi tn).space (some f) s v := by
  have hty := h.ty
  have hfi := h.fine
  have hxn := h.xn
  have hns := h.ns
  simp only [Typed] at hty
  simp only [Fine] at hfi
  simp only [xnames, scteNames_append] at hxn
  simp only [NsOk] at hns
  refine ⟨?_, fines_get _ _ _ i f s v hfi.2.2 h1 h2 h3 hm, xnamess_get _ _ i s v hxn.2 h2 h3,
    nsOks_get _ _ _ _ _ _ i f s v hns.2.2 h1 h2 h3⟩
  have hp := fines_present _ _ _ hfi.2.2 v (List.mem_of_getElem? h3)
  rcases typeds_get subs vs hty.2 i s v h2 h3 with h | h
  · rw [hp] at h; cases h
  · exact h

/-- Changes keep what C30 asks for. -/
theorem Edit.held {fi s v w} (h : Edit fi s v w) (X : Pairs) (L : List Bytes) : ∀ (D : Pairs) (ns : Bytes), Place L ns fi s →
    Held X D ns fi s v → Held X D ns fi s w := by
  induction h with
  | same => exact fun _ _ _ h => h
  | next _ _ ih1 ih2 => exact fun D ns hp h => ih2 D ns hp (ih1 D ns hp h)
  | put hb => exact fun D ns hp _ => hb.held X hp D
  | clear =>
    exact fun D ns _ _ => ⟨by simp [Typed], by simp [Fine], by simpa [xnames] using scteNames_nil, by simp [NsOk]⟩
  | pick hm =>
    intro D ns hp h
    rw [held_slice] at h ⊢
    exact fun v hv => h v (hm v hv)
  | add hb hn =>
    intro D ns hp h
    rw [held_slice] at h ⊢
    intro w hw
    rcases List.mem_append.mp hw with hw | hw
    · exact h w hw
    · rw [List.mem_singleton.mp hw]
      exact ⟨hn, hb.held X ⟨by simpa only [Sch.rt] using hp.rt, by simpa only [Sch.outer] using hp.outer,
        by simpa only [Sch.unnamed] using hp.ns⟩ D⟩
  | item _ hn ih =>
    intro D ns hp h
    rw [held_slice] at h ⊢
    intro u hu
    rcases List.mem_append.mp hu with hu | hu
    · exact h u (List.mem_append_left _ hu)
    · rcases List.mem_cons.mp hu with rfl | hu
      · exact ⟨hn, ih D ns ⟨by simpa only [Sch.rt] using hp.rt, by simpa only [Sch.outer] using hp.outer,
          by simpa only [Sch.unnamed] using hp.ns⟩ (h _ (by simp)).2⟩
      · exact h u (by simp [hu])
  | deref _ hn ih =>
    intro D ns hp h
    have h1 := h.ty
    have h2 := h.fine
    have h3 := h.xn
    have h4 := h.ns
    simp only [Typed] at h1
    simp only [Fine] at h2
    simp only [xnames] at h3
    simp only [NsOk] at h4
    have := ih D ns ⟨by simpa only [Sch.rt] using hp.rt, by simpa only [Sch.outer] using hp.outer,
        by simpa only [Sch.unnamed] using hp.ns⟩ ⟨h1, h2.2, h3, h4⟩
    exact ⟨by simpa only [Typed] using this.ty, by simpa only [Fine] using ⟨hn, this.fine⟩, by simpa only [xnames] using this.xn,
      by simpa only [NsOk] using this.ns⟩
  | field i h1 h2 hm ha h3 _ ih =>
    intro D ns hp h
    exact h.set i h1 h2 hm ha (ih _ _ (hp.field h.xn h1 h2) (h.get i h1 h2 h3 hm))

theorem mpd_place : Place mpdLocs [] none tMPD.sch := ⟨mpd_rt, mpd_outer, .inr (.inl rfl)⟩

/-- **C89**, in part: a manifest that was read from any document, as in `C49_rewrite_partial`, and then changed in places is
written without error and what is read back is the changed manifest; `ScteNames`: the captured SCTE-35 elements are in
their namespace. -/
theorem C89_edited_partial (io : FloatIO) (hio : GoFloats io) (doc : Bytes) (v w : Val)
    (h : unmarshalDoc io tMPD.sch doc = .ok v) (hs : Settled tMPD.sch v) (X : Pairs) (hX : extOk mpdPairs X mpdLocs = true)
    (hn : NsOk X [] [] none tMPD.sch v) (hx : ScteNames (xnames tMPD.sch v)) (he : Edit none tMPD.sch v w)
    (indent : Bytes) (hind : IsWs indent) (hdr : Bool) :
    ∃ doc' u, writeDoc io tMPD.sch w indent hdr = .ok doc' ∧ unmarshalDoc io tMPD.sch doc' = .ok u ∧
      Returned indent tMPD.sch w u := by
  have ht := unmarshalDoc_typed io _ _ _ mpd_ok h
  have hf := came_fine (L := mpdLocs) _ _ _ mpd_names mpd_ok mpd_rt ht
      (unmarshalDoc_came io mpdLocs _ _ _ mpd_ok mpd_rt mpd_zrt (by decide +kernel) h) hs
  have hh := he.held X mpdLocs [] [] mpd_place ⟨ht, hf, hx, hn⟩
  exact C30_values_partial io hio indent hind hdr X hX w hh.ty hh.fine hh.ns

/-- **C89**, in part: for a manifest without attributes that the library does not know and with SCTE-35 elements in their
namespace, there is no other condition on namespaces. -/
theorem C89_plain_partial (io : FloatIO) (hio : GoFloats io) (doc : Bytes) (v w : Val)
    (h : unmarshalDoc io tMPD.sch doc = .ok v) (hs : Settled tMPD.sch v) (hx : ScteNames (xnames tMPD.sch v))
    (hf : foreign tMPD.sch v = []) (he : Edit none tMPD.sch v w) (indent : Bytes) (hind : IsWs indent) (hdr : Bool) :
    ∃ doc' u, writeDoc io tMPD.sch w indent hdr = .ok doc' ∧ unmarshalDoc io tMPD.sch doc' = .ok u ∧
      Returned indent tMPD.sch w u :=
  C89_edited_partial io hio doc v w h hs [] vodVal_ok.2.2.2.2
    (scte_ns [] mpdLocs _ _ _ _ _ mpd_rt mpd_outer (.inl rfl) (unmarshalDoc_typed io _ _ _ mpd_ok h) hx hf) hx he indent hind hdr

/-- **C89**, in part: the same with unknown attributes in SCTE-35 elements, if these have no prefix or are declarations, in whatever
way the namespace is declared (as in C84). -/
theorem C89_forms_partial (io : FloatIO) (hio : GoFloats io) (doc : Bytes) (v w : Val)
    (h : unmarshalDoc io tMPD.sch doc = .ok v) (hs : Settled tMPD.sch v) (X : Pairs) (hX : extOk mpdPairs X mpdLocs = true)
    (hc : Carried X scte35NS tMPD.sch v) (he : Edit none tMPD.sch v w) (indent : Bytes) (hind : IsWs indent) (hdr : Bool) :
    ∃ doc' u, writeDoc io tMPD.sch w indent hdr = .ok doc' ∧ unmarshalDoc io tMPD.sch doc' = .ok u ∧
      Returned indent tMPD.sch w u :=
  C89_edited_partial io hio doc v w h hs X hX
    (C84_names X scte35NS (by decide) scte35_ok v (unmarshalDoc_typed io _ _ _ mpd_ok h) hc)
    (fun n hn => ⟨(hc.names n hn).1, by
      intro e
      have := (hc.names n hn).2
      rw [e] at this
      exact absurd this (by decide)⟩) he indent hind hdr

/-! ### The operations of the library -/

theorem typed_struct {s : Sch} {v : Val} (hs : s.isRecord = true) (h : Typed s v) : ∃ xv vs, v = .struct xv vs := by
  obtain ⟨tn, xn, e⟩ := isRecord_eta s hs
  rw [e] at h
  cases v <;> simp [Typed] at h
  exact ⟨_, _, rfl⟩

/-- `x.F = v` is a change. -/
theorem edit_assign {fi s w m loc f t v} (hs : s.isRecord = true) (hf : fieldAt s m loc = some (f, t)) (ht : Typed s w)
    (hv : Built (some f) t v) : Edit fi s w (assign s m loc v w) := by
  obtain ⟨xv, vs, rfl⟩ := typed_struct hs ht
  obtain ⟨h1, h2, h3, h4⟩ := fieldAt_some hf
  obtain ⟨tn, xn, e⟩ := isRecord_eta s hs
  unfold assign
  dsimp only
  cases h : vs[locate s m loc]? with
  | none =>
    rw [List.set_eq_of_length_le (by simpa using h)]
    exact .same
  | some u =>
    have := Edit.field (fi := fi) (tn := tn) (xn := xn) (xv := xv) (locate s m loc) h1 h2 h3 h4 h (.put hv)
    rw [← e] at this
    exact this

/-- `x.F = append(x.F, &v)` is a change. -/
theorem edit_push {fi s w loc f t v} (hs : s.isRecord = true) (hf : fieldAt s .elem loc = some (f, .slice (.ptr t)))
    (hw : Typed s w) (ht : t.isRecord = true) (hv : Built (some f) t v) : Edit fi s w (push s loc v w) := by
  obtain ⟨xv, vs, rfl⟩ := typed_struct hs hw
  obtain ⟨h1, h2, h3, h4⟩ := fieldAt_some hf
  obtain ⟨tn, xn, e⟩ := isRecord_eta s hs
  obtain ⟨xv', vs', rfl⟩ := built_struct ht hv
  unfold push
  dsimp only
  split
  · rename_i l hl
    have := Edit.field (fi := fi) (tn := tn) (xn := xn) (xv := xv) (locate s .elem loc) h1 h2 h3 h4 hl (.add (.ptr hv rfl) rfl)
    rw [← e] at this
    exact this
  · exact .same

/-- `AppendPeriod` with a period made by the constructors is a change. -/
theorem edit_appendPeriod {v p : Val} (hv : Typed tMPD.sch v) (hp : PeriodNew p) : Edit none tMPD.sch v (appendPeriod v p) :=
  edit_push (by decide +kernel) (f := fPeriod) (t := tPeriod.sch) (by krfl) hv (by decide +kernel) (periodNew_built hp)

/-- **C89**, in part: a manifest that was read keeps all that it has when a period is appended to it, with its attributes and
elements that the library does not know. -/
theorem C89_append_partial (io : FloatIO) (hio : GoFloats io) (doc : Bytes) (v p : Val)
    (h : unmarshalDoc io tMPD.sch doc = .ok v) (hs : Settled tMPD.sch v) (X : Pairs) (hX : extOk mpdPairs X mpdLocs = true)
    (hn : NsOk X [] [] none tMPD.sch v) (hx : ScteNames (xnames tMPD.sch v)) (hp : PeriodNew p)
    (indent : Bytes) (hind : IsWs indent) (hdr : Bool) :
    ∃ doc' u, writeDoc io tMPD.sch (appendPeriod v p) indent hdr = .ok doc' ∧ unmarshalDoc io tMPD.sch doc' = .ok u ∧
      Returned indent tMPD.sch (appendPeriod v p) u :=
  C89_edited_partial io hio doc v _ h hs X hX hn hx (edit_appendPeriod (unmarshalDoc_typed io _ _ _ mpd_ok h) hp) indent hind hdr

/-! ### An example -/

theorem scteVal_names : ScteNames (xnames tMPD.sch scteVal) := by unfold ScteNames; decide +kernel

/-- The field of `MPD@id`. -/
def fId : FInfo := fieldOf (fieldAt tMPD.sch .attr (b!"id"))

/-- The manifest of `scteDoc`, which has captured elements and attributes, with another `MPD@id` and one more period. -/
def scteEdited : Val := appendPeriod (assign tMPD.sch .attr (b!"id") (.str (b!"a<b")) scteVal) newPeriod

theorem scteEdited_edit : Edit none tMPD.sch scteVal scteEdited := by
  have h1 : Edit none tMPD.sch scteVal (assign tMPD.sch .attr (b!"id") (.str (b!"a<b")) scteVal) :=
    edit_assign (f := fId) (t := .simple .str) (by decide +kernel) (by krfl) scteVal_typed (.leaf trivial (by simp only [LeafFine]; krfl))
  refine .next h1 (edit_appendPeriod ?_ .empty)
  exact (h1.held scteExt mpdLocs [] [] mpd_place ⟨scteVal_typed, fineValB_sound _ _ _ (by decide +kernel), scteVal_names,
    nsB_sound _ _ _ _ _ _ scteVal_ok.2.2.1⟩).ty

example (io : FloatIO) (hio : GoFloats io) : ∃ doc' u, writeDoc io tMPD.sch scteEdited [ch%' '] true = .ok doc' ∧
    unmarshalDoc io tMPD.sch doc' = .ok u ∧ Returned [ch%' '] tMPD.sch scteEdited u :=
  C89_edited_partial io hio scteDoc scteVal _ (scteVal_any io) (settledB_sound _ _ vodVal_settled.2.1) scteExt scteVal_ok.2.2.2
    (nsB_sound _ _ _ _ _ _ scteVal_ok.2.2.1) scteVal_names scteEdited_edit _ (by simp [IsWs]) true

/-- The manifest of `signalDoc`, with one more period and any other changes. -/
example (io : FloatIO) (hio : GoFloats io) (w : Val) (he : Edit none tMPD.sch (appendPeriod signalVal newPeriod) w)
    (indent : Bytes) (hind : IsWs indent) (hdr : Bool) :
    ∃ doc' u, writeDoc io tMPD.sch w indent hdr = .ok doc' ∧ unmarshalDoc io tMPD.sch doc' = .ok u ∧
      Returned indent tMPD.sch w u :=
  C89_forms_partial io hio signalDoc signalVal w (signalVal_any io) (settledB_sound _ _ signalVal_settled) [] vodVal_ok.2.2.2.2
    signalVal_carried (.next (edit_appendPeriod (unmarshalDoc_typed io _ _ _ mpd_ok (signalVal_any io)) .empty) he) indent hind hdr

end Verif.Bind
