import Verif.Alone
import Verif.EncTokStream
import Verif.Layout
import Verif.Scte

/-!
C83: the text of a manifest is that of its periods, written on their own, between two texts that do not depend on them.
-/
namespace Verif.Bind

open Verif Verif.Xml Verif.FloatText

mutual
/-- What is written leaves the elements that are open as they were. -/
theorem encItem_els : ∀ (i : Item) (p p' : Printer) (o : List Out), encItem p i = .ok (p', o) → p'.ns.els = p.ns.els
  | .elem n attrs kids, p, p', o, h => by
    simp only [encItem, writeStart] at h
    cases h1 : nsStart p.ns n attrs with
    | error e => rw [h1] at h; cases h
    | ok r =>
    obtain ⟨n1, q, tas⟩ := r
    rw [h1] at h
    dsimp only at h
    cases h2 : encItems ⟨n1, (writeIndent p.ind 1).1⟩ kids with
    | error e => rw [h2] at h; cases h
    | ok r =>
    obtain ⟨p2, o2⟩ := r
    rw [h2] at h
    simp only [writeEnd] at h
    cases h3 : nsEnd p2.ns n with
    | error e => rw [h3] at h; cases h
    | ok r =>
    obtain ⟨n3, q3⟩ := r
    rw [h3] at h
    dsimp only at h
    injection h with h
    injection h with h _
    obtain ⟨e, k1, -⟩ := Verif.EncTok.nsStart_pushed h1
    obtain ⟨e', k2, -⟩ := nsEnd_tag _ _ _ _ h3
    have k3 := encItems_els kids _ _ _ h2
    dsimp only at k3
    rw [k1, k2] at k3
    injection k3 with _ k3
    rw [← h]
    exact k3
  | .text b, p, p', o, h => by simp only [encItem] at h; injection h with h; injection h with h _; rw [← h]
  | .str b, p, p', o, h => by simp only [encItem] at h; injection h with h; injection h with h _; rw [← h]
  | .raw b, p, p', o, h => by simp only [encItem] at h; injection h with h; injection h with h _; rw [← h]
/-- The same for some items. -/
theorem encItems_els : ∀ (l : List Item) (p p' : Printer) (o : List Out), encItems p l = .ok (p', o) → p'.ns.els = p.ns.els
  | [], p, p', o, h => by simp only [encItems] at h; injection h with h; injection h with h _; rw [← h]
  | i :: l, p, p', o, h => by
    simp only [encItems] at h
    cases h1 : encItem p i with
    | error e => rw [h1] at h; cases h
    | ok r =>
    obtain ⟨p1, o1⟩ := r
    rw [h1] at h
    dsimp only at h
    cases h2 : encItems p1 l with
    | error e => rw [h2] at h; cases h
    | ok r =>
    obtain ⟨p2, o2⟩ := r
    rw [h2] at h
    dsimp only at h
    injection h with h
    injection h with h _
    rw [← h, encItems_els l _ _ _ h2, encItem_els i _ _ _ h1]
end

/-! ### Periods on their own and in the manifest -/

/-- A period whose text does not depend on where it is written: names that the library captured keep their namespaces, which
are not that of `xsi`. -/
structure Portable (X : Pairs) (p : Val) : Prop where
  typed : Typed tPeriod.sch p
  fine : Fine none tPeriod.sch p
  ns : NsOk X [] [] none tPeriod.sch p
  names : ∀ n ∈ xnames tPeriod.sch p, n.space ≠ xsiNS
  attrs : ∀ a ∈ foreign tPeriod.sch p, attrUri a ≠ xsiNS

/-- Such a period is printed in the same way inside any elements that use no namespace but that of `xsi`. -/
theorem portable_print (io : FloatIO) (hio : GoFloats io) (X : Pairs) (hX : extOk mpdPairs X mpdLocs = true) (p : Val)
    (hp : Portable X p) (t : Bytes) (hw : writeDoc io tPeriod.sch p [] false = .ok t) :
    ∃ items o, marshal io tPeriod.sch p = .ok items ∧ outBytes o = t ∧ ∀ (P : Printer), P.ind = (Printer.new [] []).ind →
      (∀ e ∈ P.ns.els, e.xmlns = []) → OnlyKey xsiNS P.ns.els → encItems P items = .ok (P, o) := by
  unfold writeDoc at hw
  cases hm : marshal io tPeriod.sch p with
  | error e => rw [hm] at hw; cases hw
  | ok items =>
    rw [hm] at hw
    dsimp only at hw
    unfold encode at hw
    obtain ⟨hio1, xs, hr, -⟩ := keptV io mpdPairs X mpdLocs hX
      (fun x hx => by have := mpd_pairs; rw [List.all_eq_true] at this; simpa using this x hx)
      tPeriod.sch [] [] none false [] p Env.empty items period_ns period_rt period_noAttr hp.typed
      (fine_canon io hio _ _ _ hp.fine) hp.ns (by simp) ⟨by simp [From, Env.empty], by simp, fun _ => rfl, Or.inl rfl⟩ hm
    obtain ⟨q, o, he, hwr⟩ := encItems_wrote items (Printer.new [] []) [] Env.empty xs envInv_empty hio1 hr
    have hseq := encItems_seq items (Printer.new [] []) [] Env.empty xs envInv_empty hio1 hr q o he
    have hind := (encItems_flat items _ _ _ ⟨rfl, rfl⟩ he).2
    have hels : q.ns.els = [] := hwr.els
    rw [he] at hw
    dsimp only at hw
    injection hw with hw
    refine ⟨items, o, rfl, by simpa using hw, fun P h1 h2 h3 => ?_⟩
    have hav : xsiNS ∉ itemUris items := marshalV_avoids io xsiNS (by decide +kernel) _ _ _ _ _ period_avoids (by simp) hp.names
      hp.attrs hm
    have := (encItems_over P.ns.seq P.ns.els items _ _ _ (fun u hu => blind_key h3 h2 (fun h => hav (h ▸ hu))) he).2 hseq
    have e1 : (Printer.new [] []).over P.ns.seq P.ns.els = P := by
      obtain ⟨⟨s, els⟩, ind⟩ := P
      dsimp only at h1
      subst h1
      rfl
    have e2 : q.over P.ns.seq P.ns.els = P := by
      obtain ⟨⟨s, els⟩, ind⟩ := q
      dsimp only at hels hind
      subst hels; subst hind
      exact e1
    rw [e1, e2] at this
    exact this

/-- The items of some periods, and their text. -/
theorem portables_print (io : FloatIO) (hio : GoFloats io) (X : Pairs) (hX : extOk mpdPairs X mpdLocs = true) (f : FInfo)
    (hf : f.omitE = false) : ∀ (ps : List (Val × Bytes)),
    (∀ x ∈ ps, Portable X x.1 ∧ writeDoc io tPeriod.sch x.1 [] false = .ok x.2) →
    ∃ items o, marshalV io [] (some f) (.slice (.ptr tPeriod.sch)) (.slice (ps.map fun x => .ptr (some x.1))) = .ok items ∧
      outBytes o = ps.flatMap (·.2) ∧ ∀ (P : Printer), P.ind = (Printer.new [] []).ind →
      (∀ e ∈ P.ns.els, e.xmlns = []) → OnlyKey xsiNS P.ns.els → encItems P items = .ok (P, o)
  | [], _ => ⟨[], [], by simp [marshalV, concatM], rfl, fun P _ _ _ => rfl⟩
  | x :: ps, h => by
    obtain ⟨i1, o1, a1, a2, a3⟩ := portable_print io hio X hX x.1 (h x (by simp)).1 x.2 (h x (by simp)).2
    obtain ⟨i2, o2, b1, b2, b3⟩ := portables_print io hio X hX f hf ps fun y hy => h y (by simp [hy])
    obtain ⟨tn, xi, hs, hx⟩ := period_shape
    have a1' : marshalV io [] (some f) tPeriod.sch x.1 = .ok i1 := by
      rw [hs] at a1 ⊢
      rw [← a1, marshal]
      exact marshalV_named io _ _ _ _ _ _ _ _ hx _
    refine ⟨i1 ++ i2, o1 ++ o2, ?_, ?_, fun P h1 h2 h3 => ?_⟩
    · simp only [marshalV, List.map_map] at b1
      simp only [marshalV, List.map_map, List.map_cons, omits, hf, Bool.false_and, Bool.false_eq_true, if_false, a1'] at b1 ⊢
      rw [concatM]
      simp only [b1]
    · simp only [outBytes, List.flatMap_append, List.flatMap_cons] at a2 b2 ⊢
      rw [a2, b2]
    · rw [encItems_append, a3 P h1 h2 h3]
      dsimp only
      rw [b3 P h1 h2 h3]

/-- **C83**: the text of a manifest is that of its periods, in their order, between two texts that do not depend on the
periods: what stands before `a` and after `b` is the text of the manifest without periods.  Each period has the text that
`Period.WriteToString` gives.  No indentation; `Portable` excludes periods with captured names whose namespaces are not
kept. -/
theorem C83_splice_partial (io : FloatIO) (hio : GoFloats io) (X : Pairs) (hX : extOk mpdPairs X mpdLocs = true) (v : Val)
    (ht : Typed tMPD.sch v) (hdr : Bool) (d0 : Bytes)
    (h0 : writeDoc io tMPD.sch (assign tMPD.sch .elem (b!"Period") (.slice []) v) [] hdr = .ok d0) :
    ∃ a b, d0 = a ++ b ∧ ∀ ps : List (Val × Bytes),
      (∀ x ∈ ps, Portable X x.1 ∧ writeDoc io tPeriod.sch x.1 [] false = .ok x.2) →
      writeDoc io tMPD.sch (assign tMPD.sch .elem (b!"Period") (.slice (ps.map fun x => .ptr (some x.1))) v) [] hdr =
        .ok (a ++ ps.flatMap (·.2) ++ b) := by
  obtain ⟨tn, x, hs, hx1, hx2, hx3⟩ := mpd_shape
  obtain ⟨f, hf1, hf2, hf3⟩ := period_field
  have hxl : x.loc ≠ [] := by rw [hx1]; decide
  have hname : ∀ xv, startName (some x) xv none tn = ⟨[], b!"MPD"⟩ := by
    intro xv
    simp only [startName, hx1, hx2, hx3]
    rfl
  obtain ⟨xv, vs, hv, hlen⟩ : ∃ xv vs, v = .struct xv vs ∧ periodAt < vs.length := by
    rw [hs] at ht
    cases v with
    | struct xv vs =>
      refine ⟨xv, vs, rfl, ?_⟩
      simp only [Typed] at ht
      rw [typeds_length _ _ ht.2]
      exact lt_of_get period_sub
    | _ => simp [Typed] at ht
  subst hv
  have hass : ∀ w, assign tMPD.sch .elem (b!"Period") w (.struct xv vs) = .struct xv (vs.set periodAt w) := fun _ => rfl
  rw [hass] at h0
  have hmar : ∀ w, marshal io tMPD.sch (.struct xv (vs.set periodAt w)) =
      (match marshalAttrs io (fieldsOf tMPD.sch) (subsOf tMPD.sch) (vs.set periodAt (.slice [])) with
      | .error e => .error e
      | .ok attrs =>
        match marshalFields io [] (fieldsOf tMPD.sch) (subsOf tMPD.sch) (vs.set periodAt w) with
        | .error e => .error e
        | .ok kids => .ok [.elem ⟨[], b!"MPD"⟩ attrs kids]) := by
    intro w
    rw [marshal]
    conv => lhs; rw [hs]
    simp only [marshalV, hname, resetNs, hxl, false_and, and_false, if_false, List.append_nil]
    rw [marshalAttrs_set io _ _ vs periodAt f w (.slice []) hf1 hf2]
    cases marshalAttrs io (fieldsOf tMPD.sch) (subsOf tMPD.sch) (vs.set periodAt (.slice [])) with
    | error e => rfl
    | ok attrs => cases marshalFields io [] (fieldsOf tMPD.sch) (subsOf tMPD.sch) (vs.set periodAt w) <;> rfl
  unfold writeDoc at h0
  rw [hmar] at h0
  cases h1 : marshalAttrs io (fieldsOf tMPD.sch) (subsOf tMPD.sch) (vs.set periodAt (.slice [])) with
  | error e => rw [h1] at h0; cases h0
  | ok attrs =>
  rw [h1] at h0
  dsimp only at h0
  cases h2 : marshalFields io [] (fieldsOf tMPD.sch) (subsOf tMPD.sch) (vs.set periodAt (.slice [])) with
  | error e => rw [h2] at h0; cases h0
  | ok kids =>
  rw [h2] at h0
  dsimp only at h0
  have hfi : ∀ w, fieldItems io f (.slice (.ptr tPeriod.sch)) (.slice w) (marshalV io [] (some f) (.slice (.ptr tPeriod.sch)) (.slice w)) =
      marshalV io [] (some f) (.slice (.ptr tPeriod.sch)) (.slice w) := by
    intro w
    simp [fieldItems, hf2, hf3, omits, Val.isAbsent]
  obtain ⟨k1, k2, hk, hset⟩ := marshalFields_set io [] _ _ vs periodAt f _ (.slice []) kids hf1 period_sub hlen
    (by rw [hfi]; simp [marshalV, concatM]) h2
  subst hk
  unfold encode at h0
  simp only [encItems, encItem, writeStart] at h0
  cases hst : nsStart (Printer.new [] []).ns ⟨[], b!"MPD"⟩ attrs with
  | error e => rw [hst] at h0; cases h0
  | ok r =>
  obtain ⟨n1, q, tas⟩ := r
  rw [hst] at h0
  dsimp only at h0
  obtain ⟨e, he1, he2, hkey⟩ := start_key xsiNS (by decide +kernel) 0 (b!"MPD") attrs (marshalAttrs_in io xsiNS _ _ _ _ mpd_attrs h1) hst
  rw [writeIndent_flat _ _ ⟨rfl, rfl⟩] at h0
  dsimp only at h0
  rw [encItems_append] at h0
  cases h3 : encItems ⟨n1, (Printer.new [] []).ind⟩ k1 with
  | error e => rw [h3] at h0; cases h0
  | ok r =>
  obtain ⟨P1, o1⟩ := r
  rw [h3] at h0
  dsimp only at h0
  have hP1 := (encItems_flat k1 _ _ _ ⟨rfl, rfl⟩ h3).2
  have hels := encItems_els k1 _ _ _ h3
  dsimp only at hels hP1
  refine ⟨(if hdr then xmlHeader else []) ++ outBytes ([.raw [], .start q tas] ++ o1), ?_⟩
  cases h4 : encItems P1 k2 with
  | error e => rw [h4] at h0; cases h0
  | ok r =>
  obtain ⟨P2, o2⟩ := r
  rw [h4] at h0
  dsimp only at h0
  cases h5 : writeEnd P2 ⟨[], b!"MPD"⟩ with
  | error e => rw [h5] at h0; cases h0
  | ok r =>
  obtain ⟨P3, o3⟩ := r
  rw [h5] at h0
  dsimp only at h0
  injection h0 with h0
  refine ⟨outBytes (o2 ++ o3), ?_, fun ps hps => ?_⟩
  · rw [← h0]
    simp [outBytes]
  · obtain ⟨its, o, c1, c2, c3⟩ := portables_print io hio X hX f hf3 ps hps
    rw [hass]
    unfold writeDoc
    rw [hmar, h1]
    dsimp only
    rw [hset _ its (by rw [hfi]; exact c1)]
    dsimp only
    unfold encode
    simp only [encItems, encItem, writeStart]
    rw [hst]
    dsimp only
    rw [writeIndent_flat _ _ ⟨rfl, rfl⟩]
    dsimp only
    rw [List.append_assoc, encItems_append, h3]
    dsimp only
    rw [encItems_append, c3 P1 hP1 (by rw [hels, he1]; simpa using he2) (by rw [hels]; exact hkey)]
    dsimp only
    rw [h4]
    dsimp only
    rw [h5]
    dsimp only
    rw [← c2]
    simp [outBytes]

/-! ### Values that are built -/

theorem period_outer : tPeriod.sch.outer none = true := by decide +kernel

theorem Built.portable {p : Val} (h : Built none tPeriod.sch p) : Portable [] p where
  typed := h.sound.ty
  fine := h.sound.fine
  ns := scte_ns [] mpdLocs _ _ _ _ _ period_rt period_outer (.inl rfl) h.sound.ty h.sound.xn h.sound.fo
  names n hn := by rw [(h.sound.xn n hn).1]; decide +kernel
  attrs a ha := by rw [h.sound.fo] at ha; cases ha

/-- **C83**, in part: a period that is written on its own is read back as the same, with any indentation.  The conditions are
those of C30. -/
theorem C83_back_partial (io : FloatIO) (hio : GoFloats io) (indent : Bytes) (hind : IsWs indent) (hdr : Bool) (X : Pairs)
    (hX : extOk mpdPairs X mpdLocs = true) (p : Val) (ht : Typed tPeriod.sch p) (hc : Fine none tPeriod.sch p)
    (hn : NsOk X [] [] none tPeriod.sch p) :
    ∃ doc w, writeDoc io tPeriod.sch p indent hdr = .ok doc ∧ unmarshalDoc io tPeriod.sch doc = .ok w ∧
      Returned indent tPeriod.sch p w := by
  obtain ⟨w, h1, h2⟩ := sch_back io tPeriod.sch mpdPairs mpdLocs period_struct period_sch_ok period_rt period_ns
    (fun x hx => by have := mpd_pairs; rw [List.all_eq_true] at this; simpa using this x hx) period_hgt X hX p ht
    (fine_canon io hio _ _ _ hc) hn
  obtain ⟨doc, w', h3, h4, h5, h6⟩ := h2 indent hind hdr
  exact ⟨doc, w', h3, h4, w, h1, h5, h6⟩

/-- The text of a period on its own, without indentation (`p.WriteToString("")`, `/repo/mpd/io.go` 107-115); nothing if it can
not be written. -/
def periodText (io : FloatIO) (p : Val) : Bytes :=
  match writeDoc io tPeriod.sch p [] false with
  | .ok t => t
  | .error _ => []

theorem built_written (io : FloatIO) (hio : GoFloats io) {p : Val} (h : Built none tPeriod.sch p) :
    writeDoc io tPeriod.sch p [] false = .ok (periodText io p) := by
  obtain ⟨doc, w, h1, -⟩ := C83_back_partial io hio [] (by simp [IsWs]) false [] vodVal_ok.2.2.2.2 p h.portable.typed h.portable.fine
    h.portable.ns
  unfold periodText
  rw [h1]

theorem append_periods : ∀ (ps : List Val) (xv : Name) (vs : List Val) (l : List Val), vs[periodAt]? = some (.slice l) →
    ps.foldl appendPeriod (.struct xv vs) = .struct xv (vs.set periodAt (.slice (l ++ ps.map fun p => .ptr (some p))))
  | [], xv, vs, l, h => by
    simp only [List.foldl_nil, List.map_nil, List.append_nil]
    congr 1
    refine List.ext_getElem? fun i => ?_
    rw [List.getElem?_set]
    split
    · rename_i hi
      subst hi
      rw [if_pos (lt_of_get h), h]
    · rfl
  | p :: ps, xv, vs, l, h => by
    have e : appendPeriod (.struct xv vs) p = .struct xv (vs.set periodAt (.slice (l ++ [.ptr (some p)]))) := by
      unfold appendPeriod push
      rw [show locate tMPD.sch .elem (b!"Period") = periodAt from rfl]
      dsimp only
      rw [h]
    rw [List.foldl_cons, e, append_periods ps xv _ (l ++ [.ptr (some p)]) (by rw [List.getElem?_set_self (lt_of_get h)]),
      List.set_set, List.append_assoc]
    rfl

/-- **C83** for values that are built: if a manifest has no periods, then the periods that are appended stand in its text, in
their order, each as it is written on its own, and the rest of the text does not change.  No indentation. -/
theorem C83_built (io : FloatIO) (hio : GoFloats io) (v : Val) (hv : Built none tMPD.sch v)
    (h0 : assign tMPD.sch .elem (b!"Period") (.slice []) v = v) (hdr : Bool) :
    ∃ a b, writeDoc io tMPD.sch v [] hdr = .ok (a ++ b) ∧ ∀ ps : List Val, (∀ p ∈ ps, Built none tPeriod.sch p) →
      (∀ p ∈ ps, writeDoc io tPeriod.sch p [] false = .ok (periodText io p)) ∧
      writeDoc io tMPD.sch (ps.foldl appendPeriod v) [] hdr = .ok (a ++ ps.flatMap (periodText io) ++ b) := by
  obtain ⟨d0, w, h1, -⟩ := C58_built io hio v hv [] (by simp [IsWs]) hdr
  obtain ⟨a, b, h2, h3⟩ := C83_splice_partial io hio [] vodVal_ok.2.2.2.2 v hv.sound.ty hdr d0 (by rw [h0]; exact h1)
  refine ⟨a, b, by rw [h1, h2], fun ps hps => ⟨fun p hp => built_written io hio (hps p hp), ?_⟩⟩
  have := h3 (ps.map fun p => (p, periodText io p)) (by
    intro x hx
    obtain ⟨p, hp, rfl⟩ := List.mem_map.mp hx
    exact ⟨(hps p hp).portable, built_written io hio (hps p hp)⟩)
  obtain ⟨tn, xi, hs, -⟩ := mpd_shape
  obtain ⟨xv, vs, rfl⟩ : ∃ xv vs, v = .struct xv vs := by
    have := hv.sound.ty
    rw [hs] at this
    cases v <;> simp [Typed] at this
    exact ⟨_, _, rfl⟩
  have hlen : periodAt < vs.length := by
    have ht := hv.sound.ty
    rw [hs] at ht
    simp only [Typed] at ht
    rw [typeds_length _ _ ht.2]
    exact lt_of_get period_sub
  have hget : vs[periodAt]? = some (.slice []) := by
    have e : assign tMPD.sch .elem (b!"Period") (.slice []) (.struct xv vs) = .struct xv (vs.set periodAt (.slice [])) := rfl
    rw [e] at h0
    injection h0 with _ h0
    rw [← h0, List.getElem?_set_self hlen]
  rw [append_periods ps xv vs [] hget, List.nil_append]
  rw [List.map_map, List.flatMap_map] at this
  exact this

/-! ### Cases -/

/-- A period with an SCTE-35 event. -/
def eventPeriod : Val := push tPeriod.sch (b!"EventStream")
  (push tEventStreamType.sch (b!"Event") (assign tEventType.sch .elem (b!"Signal") (.ptr (some newSignal)) tEventType.sch.zero)
    tEventStreamType.sch.zero) newPeriod

theorem newPeriod_built : Built none tPeriod.sch newPeriod := new_built (s := tPeriod.sch) (by decide +kernel) (by decide +kernel)

theorem eventPeriod_built : Built none tPeriod.sch eventPeriod := by
  have hc := C61_constructors [] (by decide) 0 0 (by decide) (by decide) false
  refine push_built (s := tPeriod.sch) (f := fieldIn tPeriod (b!"EventStream")) (t := tEventStreamType.sch) (by decide +kernel)
    newPeriod_built (by krfl) ?_ (by decide +kernel)
  refine push_built (s := tEventStreamType.sch) (f := fieldIn tEventStreamType (b!"Event")) (t := tEventType.sch) (by decide +kernel)
    (new_built (s := tEventStreamType.sch) (by decide +kernel) (by decide +kernel)) (by krfl) ?_ (by decide +kernel)
  exact assign_built (s := tEventType.sch) (f := fieldIn tEventType (b!"Signal")) (t := .ptr tSignalType.sch) (by decide +kernel)
    (new_built (s := tEventType.sch) (by decide +kernel) (by decide +kernel)) (by krfl) (.ptr hc.1 rfl)

/-- `C83_built` applies to a new manifest and two periods. -/
example (io : FloatIO) (hio : GoFloats io) : ∃ a b, writeDoc io tMPD.sch (newMPD (b!"static")) [] true = .ok (a ++ b) ∧
    writeDoc io tMPD.sch (appendPeriod (appendPeriod (newMPD (b!"static")) newPeriod) eventPeriod) [] true =
      .ok (a ++ (periodText io newPeriod ++ periodText io eventPeriod) ++ b) := by
  obtain ⟨a, b, h1, h2⟩ := C83_built io hio (newMPD (b!"static")) (mpdNew_built (.new _ (by decide +kernel))) (by krfl) true
  refine ⟨a, b, h1, ?_⟩
  have := (h2 [newPeriod, eventPeriod] (by
    intro p hp
    simp only [List.mem_cons, List.not_mem_nil, or_false] at hp
    rcases hp with rfl | rfl
    · exact newPeriod_built
    · exact eventPeriod_built)).2
  simpa using this

/-- The text of the second: the namespace of DASH is not in it, so a reader that knows about namespaces sees `Period` in no
namespace, unlike in the manifest. -/
theorem eventPeriod_text (io : FloatIO) : periodText io eventPeriod = b!"<Period><EventStream schemeIdUri=\"\"><Event presentationTime=\"0\"><Signal xmlns=\"http://www.scte.org/schemas/35\"></Signal></Event></EventStream></Period>" := by
  krfl

/-- The manifest with both. -/
example (io : FloatIO) : writeDoc io tMPD.sch (appendPeriod (appendPeriod (newMPD (b!"static")) newPeriod) eventPeriod) [] false =
    .ok (b!"<MPD xmlns=\"urn:mpeg:dash:schema:mpd:2011\" profiles=\"\" type=\"static\"><Period></Period><Period><EventStream schemeIdUri=\"\"><Event presentationTime=\"0\"><Signal xmlns=\"http://www.scte.org/schemas/35\"></Signal></Event></EventStream></Period></MPD>") := by
  krfl

/-- A manifest with the location of its schema. -/
@[irreducible] def locDoc : Bytes := b!"<MPD xmlns=\"urn:mpeg:dash:schema:mpd:2011\" xmlns:xsi=\"http://www.w3.org/2001/XMLSchema-instance\" xsi:schemaLocation=\"urn:mpeg:dash:schema:mpd:2011 DASH-MPD.xsd\" profiles=\"p\"></MPD>"

/-- Its value. -/
@[irreducible] def locVal : Val := valOf exIO locDoc

/-- A period with an attribute `xsi:type` in an SCTE-35 section. -/
@[irreducible] def markDoc : Bytes := b!"<Period xmlns:xsi=\"http://www.w3.org/2001/XMLSchema-instance\"><EventStream schemeIdUri=\"urn:x\"><Event><Signal xmlns=\"http://www.scte.org/schemas/35\"><SpliceInfoSection xsi:type=\"t\"></SpliceInfoSection></Signal></Event></EventStream></Period>"

/-- Its value. -/
@[irreducible] def markVal : Val :=
  match unmarshalDoc exIO tPeriod.sch markDoc with
  | .ok v => v
  | .error _ => .absent

/-- How they are written. -/
@[irreducible] def locOut : Bytes := b!"<MPD xmlns=\"urn:mpeg:dash:schema:mpd:2011\" xmlns:xsi=\"http://www.w3.org/2001/XMLSchema-instance\" xsi:schemaLocation=\"urn:mpeg:dash:schema:mpd:2011 DASH-MPD.xsd\" profiles=\"p\"></MPD>"
@[irreducible] def markOut : Bytes := b!"<Period><EventStream schemeIdUri=\"urn:x\"><Event presentationTime=\"0\"><Signal xmlns=\"http://www.scte.org/schemas/35\"><SpliceInfoSection xmlns:_XMLSchema-instance=\"http://www.w3.org/2001/XMLSchema-instance\" _XMLSchema-instance:type=\"t\"></SpliceInfoSection></Signal></Event></EventStream></Period>"
@[irreducible] def bothOut : Bytes := b!"<MPD xmlns=\"urn:mpeg:dash:schema:mpd:2011\" xmlns:xsi=\"http://www.w3.org/2001/XMLSchema-instance\" xsi:schemaLocation=\"urn:mpeg:dash:schema:mpd:2011 DASH-MPD.xsd\" profiles=\"p\"><Period><EventStream schemeIdUri=\"urn:x\"><Event presentationTime=\"0\"><Signal xmlns=\"http://www.scte.org/schemas/35\"><SpliceInfoSection xsi:type=\"t\"></SpliceInfoSection></Signal></Event></EventStream></Period></MPD>"

theorem locVal_read (io : FloatIO) : unmarshalDoc io tMPD.sch locDoc = .ok locVal := by krfl
theorem markVal_read (io : FloatIO) : unmarshalDoc io tPeriod.sch markDoc = .ok markVal := by krfl
theorem locVal_out (io : FloatIO) : writeDoc io tMPD.sch (assign tMPD.sch .elem (b!"Period") (.slice []) locVal) [] false =
    .ok locOut := by krfl
theorem markVal_out (io : FloatIO) : writeDoc io tPeriod.sch markVal [] false = .ok markOut := by krfl
theorem both_out (io : FloatIO) : writeDoc io tMPD.sch (assign tMPD.sch .elem (b!"Period") (.slice [.ptr (some markVal)]) locVal) []
    false = .ok bothOut := by krfl

/-- C83 is false of all periods: an attribute of the namespace of `xsi` has the prefix `xsi` in a manifest that has declared
it, and a made-up prefix on its own. -/
theorem C83_refuted (io : FloatIO) : ¬ ∀ (v p : Val) (d0 t d1 : Bytes), Typed tMPD.sch v → Typed tPeriod.sch p →
    writeDoc io tMPD.sch (assign tMPD.sch .elem (b!"Period") (.slice []) v) [] false = .ok d0 →
    writeDoc io tPeriod.sch p [] false = .ok t →
    writeDoc io tMPD.sch (assign tMPD.sch .elem (b!"Period") (.slice [.ptr (some p)]) v) [] false = .ok d1 →
    ∃ a b, d0 = a ++ b ∧ d1 = a ++ t ++ b := by
  intro h
  obtain ⟨a, b, h1, h2⟩ := h locVal markVal locOut markOut bothOut (unmarshalDoc_typed io _ _ _ mpd_ok (locVal_read io))
    (unmarshalDoc_typed io _ _ _ period_sch_ok (markVal_read io)) (locVal_out io) (markVal_out io) (both_out io)
  have e1 := congrArg List.length h1
  have e2 := congrArg List.length h2
  have l0 : locOut.length = 180 := by decide +kernel
  have l1 : markOut.length = 294 := by decide +kernel
  have l2 : bothOut.length = 388 := by decide +kernel
  simp only [List.length_append] at e1 e2
  omega

end Verif.Bind
