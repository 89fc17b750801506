import Verif.Came
import Verif.RtLeaf
import Verif.SctePass
import Mathlib.Data.List.TakeWhile

/-!
C49: a manifest that was read from a document can be written again and read back as the same.  Most of the conditions of C30
hold for every value that was read (`Verif/Came.lean`); the others are `Settled` and the conditions on namespaces.
-/
namespace Verif.Bind

open Verif Verif.Xml Verif.FloatText

mutual
/-- The conditions that do not follow from a value having been read: durations are not negative (C05), names of captured attributes start like names, and no field is behind a nil embedded
pointer. -/
def Settled : Sch → Val → Prop
  | .simple k, v => k = .duration → LeafFine .duration v
  | .ptr s, .ptr (some v) => Settled s v
  | .slice s, .slice l => ∀ v ∈ l, Settled s v
  | .attr, .attr a => NCName a.name.loc
  | .struct _ _ _ subs, .struct _ vs => Settleds subs vs
  | _, _ => True
/-- The same for all fields. -/
def Settleds : List Sch → List Val → Prop
  | s :: ss, v :: vs => v.isAbsent = false ∧ Settled s v ∧ Settleds ss vs
  | _, _ => True
end

mutual
/-- The names in the tags are names of elements that the fields they are in accept, where they are not misnamed. -/
def namesRt (fi : Option FInfo) : Sch → Bool
  | .ptr s => namesRt fi s
  | .slice s => namesRt fi s
  | .struct tn xn infos subs => (nameB fi xn (startName xn ⟨[], []⟩ fi tn) || !decide (TagSuits fi xn)) && namesRts infos subs
  | _ => true
/-- The same for all fields. -/
def namesRts : List FInfo → List Sch → Bool
  | fi :: fis, s :: ss => namesRt (some fi) s && namesRts fis ss
  | _, _ => true
end

theorem mpd_zrt : tMPD.sch.zrt = true := by decide +kernel

theorem mpd_names : namesRt none tMPD.sch = true := by decide +kernel

theorem splitPrefixed_colonless {l : Bytes} (h : ch%':' ∉ l) : splitPrefixed l = ([], l) := by
  unfold splitPrefixed
  rw [List.dropWhile_eq_nil_iff.2]
  intro c hc
  simp only [bne_iff_ne, ne_eq]
  rintro rfl
  exact h hc

theorem startName_empty (xn fi : Option FInfo) (xv : Name) (tn : Bytes) (h : tagless xn = true → xv.loc = []) :
    startName xn xv fi tn = startName xn ⟨[], []⟩ fi tn := by
  cases xn with
  | none => rfl
  | some x =>
    unfold startName
    dsimp only
    by_cases hx : x.loc = []
    · have := h (by simp [tagless, hx])
      simp [hx, this]
    · simp [hx]

theorem startName_captured (x : FInfo) (hx : x.loc = []) (fi : Option FInfo) (xv : Name) (tn : Bytes) (h : xv.loc ≠ []) :
    startName (some x) xv fi tn = xv := by
  simp [startName, hx, h]

theorem name_ok {fi xn : Option FInfo} {xv : Name} {tn : Bytes} (hs : nameB fi xn (startName xn ⟨[], []⟩ fi tn) = true)
    (h : NameCame fi xn xv) : NameOk fi xn (startName xn xv fi tn) := by
  have h0 := nameB_sound _ _ _ hs
  by_cases ht : tagless xn = true
  · rcases h ht with h | ⟨h1, h2⟩
    · rw [startName_empty _ _ _ _ fun _ => h]; exact h0
    · cases xn with
      | none => simp [tagless] at ht
      | some x =>
        have hx : x.loc = [] := by simpa [tagless] using ht
        rw [startName_captured x hx _ _ _ h1.1]
        refine ⟨?_, ?_⟩
        · rintro y hy
          injection hy with hy; subst hy
          exact ⟨(h0.1 x rfl).1, Or.inl hx, fun _ => by rw [splitPrefixed_colonless h1.2]⟩
        · intro f hf
          rw [splitPrefixed_colonless h1.2]
          exact h2 f hf
  · rw [startName_empty _ _ _ _ fun h => absurd h ht]; exact h0

mutual
theorem came_fine {L : List Bytes} : ∀ (s : Sch) (fi : Option FInfo) (v : Val), namesRt fi s = true → s.ok = true → s.rt L = true → Typed s v →
    Came wfCont fi s v → Settled s v → Fine fi s v
  | .simple k, fi, v, _, ho, _, ht, hc, hs => by
    simp only [Came, Settled, Fine] at hc hs ⊢
    cases k with
    | duration => exact hs rfl
    | str => cases v <;> first | exact trivial | exact hc
    | float b =>
      cases v <;> first | exact trivial | skip
      simp only [Sch.ok, Bool.or_eq_true, beq_iff_eq] at ho
      exact ⟨ho, ht⟩
    | floatInf => cases v <;> first | exact trivial | exact ht
    | _ => exact trivial
  | .ptr s, fi, v, hn, ho, hr, ht, hc, hs => by
    cases v with
    | ptr o =>
      cases o with
      | none => simp only [Fine]
      | some v =>
        simp only [Came, Settled, Fine, Typed, namesRt, Sch.ok, Sch.rt] at hc hs ht hn ho hr ⊢
        exact ⟨hc.1, came_fine s fi v hn ho hr ht hc.2 hs⟩
    | _ => simp [Typed] at ht
  | .slice s, fi, v, hn, ho, hr, ht, hc, hs => by
    cases v with
    | slice l =>
      simp only [Came, Settled, Fine, Typed, namesRt, Sch.ok, Sch.rt] at hc hs ht hn ho hr ⊢
      exact fun v hv => ⟨(hc v hv).1, came_fine s fi v hn ho hr (ht v hv) (hc v hv).2 (hs v hv)⟩
    | _ => simp [Typed] at ht
  | .attr, fi, v, _, _, _, ht, hc, hs => by
    cases v with
    | attr a => simp only [Came, Settled, Fine] at hc hs ⊢; exact ⟨hs, hc.2⟩
    | _ => simp [Typed] at ht
  | .struct tn xn F S, fi, v, hn, ho, hr, ht, hc, hs => by
    obtain ⟨xv, vs, rfl, hf⟩ := struct_fields ho ht
    simp only [Came, Settled, Fine, namesRt, Sch.ok, Sch.rt, Bool.and_eq_true] at hc hs hn ho hr ⊢
    have hnb := hn.1
    simp only [Bool.or_eq_true, Bool.not_eq_true', decide_eq_false_iff_not] at hnb
    exact ⟨name_ok (hnb.resolve_right fun h => h hc.1.1) hc.1.2, hc.2.1, cames_fines S F vs hn.2 ho.2 hr.2
      (StructRt.of hr.1.1).rt hf.len hf.typ hc.2.2 hs⟩
  | .name, _, _, _, _, hr, _, _, _ => by simp [Sch.rt] at hr
  | .bad _, _, _, _, _, hr, _, _, _ => by simp [Sch.rt] at hr
theorem cames_fines {L : List Bytes} : ∀ (S : List Sch) (F : List FInfo) (vs : List Val), namesRts F S = true → oks S = true → rts L S = true →
    (∀ (i : Nat) (f : FInfo) (s : Sch), F[i]? = some f → S[i]? = some s → fieldRt f s = true) →
    F.length = S.length → Typeds S vs → Cames wfCont F S vs → Settleds S vs → Fines F S vs
  | [], F, vs, _, _, _, _, hl, ht, _, _ => by
    cases F with
    | cons _ _ => simp at hl
    | nil => cases vs with
      | nil => simp [Fines]
      | cons _ _ => simp [Typeds] at ht
  | s :: S, F, vs, hn, ho, hr, hst, hl, ht, hc, hs => by
    cases F with
    | nil => simp at hl
    | cons f F =>
      cases vs with
      | nil => simp [Typeds] at ht
      | cons v vs =>
        simp only [Cames, Settleds, Fines, Typeds, namesRts, oks, rts, Bool.and_eq_true] at hc hs ht hn ho hr ⊢
        have htv := ht.1.resolve_left (by simp [hs.1])
        refine ⟨hs.1, ⟨fun hm => came_fine s (some f) v hn.1 ho.1 hr.1 htv (hc.1.1 hm) hs.2.1, fun hm => ?_⟩, ?_⟩
        · have hin := hc.1.2 hm
          rw [fieldRt_inner (hst 0 f s rfl rfl) hm] at htv
          cases v <;> simp [Typed, KindOk] at htv
          exact hin _ rfl
        exact cames_fines S F vs hn.2 ho.2 hr.2 (fun i f' s' h1 h2 => hst (i + 1) f' s' (by simpa using h1) (by simpa using h2))
          (by simpa using hl) ht.2 hc.2 hs.2.2
end

/-- **C49**, in part: a manifest read from any document is written and read back as the same manifest, with or without a
header and with any indentation by white space.  Not covered: durations that are negative, fields
behind a nil embedded pointer, and namespaces in captured elements and attributes other than in `NsOk`. -/
theorem C49_rewrite_partial (io : FloatIO) (hio : GoFloats io) (doc : Bytes) (v : Val)
    (h : unmarshalDoc io tMPD.sch doc = .ok v) (hs : Settled tMPD.sch v) (X : Pairs) (hX : extOk mpdPairs X mpdLocs = true)
    (hn : NsOk X [] [] none tMPD.sch v) (indent : Bytes) (hind : IsWs indent) (hdr : Bool) :
    ∃ doc' w, writeDoc io tMPD.sch v indent hdr = .ok doc' ∧ unmarshalDoc io tMPD.sch doc' = .ok w ∧
      Returned indent tMPD.sch v w := by
  have ht := unmarshalDoc_typed io _ _ _ mpd_ok h
  exact C30_values_partial io hio indent hind hdr X hX v ht
    (came_fine (L := mpdLocs) _ _ _ mpd_names mpd_ok mpd_rt ht
      (unmarshalDoc_came io mpdLocs _ _ _ mpd_ok mpd_rt mpd_zrt (by decide +kernel) h) hs) hn

/-! ### Manifests without captured names -/

mutual
/-- The captured attributes. -/
def foreign : Sch → Val → List Attr
  | .ptr s, .ptr (some v) => foreign s v
  | .slice s, .slice l => l.flatMap fun v => foreign s v
  | .attr, .attr a => [a]
  | .struct _ _ _ subs, .struct _ vs => foreigns subs vs
  | _, _ => []
/-- The same for all fields. -/
def foreigns : List Sch → List Val → List Attr
  | s :: ss, v :: vs => foreign s v ++ foreigns ss vs
  | _, _ => []
end

theorem foreigns_nil : ∀ (S : List Sch) (vs : List Val), foreigns S vs = [] → ∀ (i : Nat) (s : Sch) (v : Val),
    S[i]? = some s → vs[i]? = some v → foreign s v = []
  | [], _, _, i, s, v, h, _ => by simp at h
  | _ :: _, [], _, i, s, v, _, h => by simp at h
  | s :: S, v :: vs, hf, i, s', v', h1, h2 => by
    simp only [foreigns, List.append_eq_nil_iff] at hf
    cases i with
    | zero => simp at h1 h2; subst h1; subst h2; exact hf.1
    | succ i => simp at h1 h2; exact foreigns_nil S vs hf.2 i s' v' h1 h2

mutual
theorem plain_ns (X : Pairs) (L : List Bytes) : ∀ (s : Sch) (D : Pairs) (ns : Bytes) (fi : Option FInfo) (v : Val), s.rt L = true →
    Typed s v → xnames s v = [] → foreign s v = [] → NsOk X D ns fi s v
  | .ptr s, D, ns, fi, v, hr, ht, h1, h2 => by
    cases v with
    | ptr o =>
      cases o with
      | none => simp [NsOk]
      | some v =>
        simp only [xnames, foreign, NsOk, Typed, Sch.rt] at h1 h2 ht hr ⊢
        exact plain_ns X L s D ns fi v hr ht h1 h2
    | _ => simp [Typed] at ht
  | .slice s, D, ns, fi, v, hr, ht, h1, h2 => by
    cases v with
    | slice l =>
      simp only [xnames, foreign, NsOk, Typed, Sch.rt, List.flatMap_eq_nil_iff] at h1 h2 ht hr ⊢
      exact fun v hv => plain_ns X L s D ns fi v hr (ht v hv) (h1 v hv) (h2 v hv)
    | _ => simp [Typed] at ht
  | .struct tn xn F S, D, ns, fi, v, hr, ht, h1, h2 => by
    cases v with
    | struct xv vs =>
      simp only [xnames, foreign, NsOk, Typed, Sch.rt, Bool.and_eq_true, List.append_eq_nil_iff] at h1 h2 ht hr ⊢
      have hst := StructRt.of hr.1.1
      refine ⟨fun h => ?_, ?_, plains_ns X L S _ _ F vs hr.2 ht.2 h1.2 h2⟩
      · simp [h] at h1
      · intro i f l g1 g2 g3
        obtain ⟨s, hs⟩ := get_of_lt (l := S) (i := i) (by have := hst.len; have := lt_of_get g1; omega)
        have := foreigns_nil S vs h2 i s _ hs g3
        rw [fieldRt_any (hst.rt i f s g1 hs) g2] at this
        have hl : attrsIn l = [] := by
          simp only [foreign, List.flatMap_eq_nil_iff] at this
          unfold attrsIn
          rw [List.filterMap_eq_nil_iff]
          intro v hv
          have := this v hv
          cases v <;> simp [foreign] at this ⊢
        rw [hl]
        simp [AnyNss]
    | _ => simp [Typed] at ht
  | .simple k, D, ns, fi, v, _, _, _, _ => by simp [NsOk]
  | .attr, D, ns, fi, v, _, _, _, _ => by simp [NsOk]
  | .name, D, ns, fi, v, _, _, _, _ => by simp [NsOk]
  | .bad _, D, ns, fi, v, _, _, _, _ => by simp [NsOk]
theorem plains_ns (X : Pairs) (L : List Bytes) : ∀ (S : List Sch) (D : Pairs) (ns : Bytes) (F : List FInfo) (vs : List Val),
    rts L S = true → Typeds S vs → xnamess S vs = [] → foreigns S vs = [] → NsOks X D ns F S vs
  | [], D, ns, F, vs, _, _, _, _ => by cases F <;> simp [NsOks]
  | s :: S, D, ns, F, vs, hr, ht, h1, h2 => by
    cases F with
    | nil => simp [NsOks]
    | cons f F =>
      cases vs with
      | nil => simp [NsOks]
      | cons v vs =>
        simp only [xnamess, foreigns, NsOks, Typeds, rts, Bool.and_eq_true, List.append_eq_nil_iff] at h1 h2 ht hr ⊢
        refine ⟨?_, plains_ns X L S D ns F vs hr.2 ht.2 h1.2 h2.2⟩
        rcases ht.1 with h | h
        · cases v <;> simp [Val.isAbsent] at h
          cases s <;> simp [NsOk]
        · exact plain_ns X L s D ns (some f) v hr.1 h h1.1 h2.1
end

/-- **C49**, in part: for a manifest without SCTE-35 elements and without attributes that the library does not know, there is
no condition on namespaces. -/
theorem C49_plain_partial (io : FloatIO) (hio : GoFloats io) (doc : Bytes) (v : Val)
    (h : unmarshalDoc io tMPD.sch doc = .ok v) (hs : Settled tMPD.sch v) (hx : xnames tMPD.sch v = [])
    (hf : foreign tMPD.sch v = []) (indent : Bytes) (hind : IsWs indent) (hdr : Bool) :
    ∃ doc' w, writeDoc io tMPD.sch v indent hdr = .ok doc' ∧ unmarshalDoc io tMPD.sch doc' = .ok w ∧
      Returned indent tMPD.sch v w :=
  C49_rewrite_partial io hio doc v h hs [] vodVal_ok.2.2.2.2
    (plain_ns [] mpdLocs _ _ _ _ _ mpd_rt (unmarshalDoc_typed io _ _ _ mpd_ok h) hx hf) indent hind hdr

/-! ### Examples -/

mutual
/-- `Settled`. -/
def settledB : Sch → Val → Bool
  | .simple k, v => !(k == .duration) || fineB .duration v
  | .ptr s, .ptr (some v) => settledB s v
  | .slice s, .slice l => l.all fun v => settledB s v
  | .attr, .attr a => decide (NCName a.name.loc)
  | .struct _ _ _ subs, .struct _ vs => settledsB subs vs
  | _, _ => true
/-- `Settleds`. -/
def settledsB : List Sch → List Val → Bool
  | s :: ss, v :: vs => !v.isAbsent && settledB s v && settledsB ss vs
  | _, _ => true
end

mutual
theorem settledB_sound : ∀ (s : Sch) (v : Val), settledB s v = true → Settled s v
  | .simple k, v, h => by
    simp only [settledB, Settled] at h ⊢
    intro hk
    subst hk
    exact fineB_sound _ v (by simpa using h)
  | .ptr s, v, h => by
    cases v with
    | ptr o =>
      cases o with
      | none => simp [Settled]
      | some v => simp only [settledB, Settled] at h ⊢; exact settledB_sound s v h
    | _ => simp [Settled]
  | .slice s, v, h => by
    cases v with
    | slice l =>
      simp only [settledB, Settled, List.all_eq_true] at h ⊢
      exact fun v hv => settledB_sound s v (h v hv)
    | _ => simp [Settled]
  | .attr, v, h => by
    cases v with
    | attr a => simpa [settledB, Settled] using h
    | _ => simp [Settled]
  | .struct tn xn F S, v, h => by
    cases v with
    | struct xv vs =>
      simp only [settledB, Settled] at h ⊢
      exact settledsB_sound S vs h
    | _ => simp [Settled]
  | .name, v, h => by simp [Settled]
  | .bad _, v, h => by simp [Settled]
theorem settledsB_sound : ∀ (S : List Sch) (vs : List Val), settledsB S vs = true → Settleds S vs
  | [], vs, _ => by simp [Settleds]
  | s :: S, vs, h => by
    cases vs with
    | nil => simp [Settleds]
    | cons v vs =>
      simp only [settledsB, Settleds, Bool.and_eq_true, Bool.not_eq_true'] at h ⊢
      exact ⟨h.1.1, settledB_sound s v h.1.2, settledsB_sound S vs h.2⟩
end

theorem vodVal_settled : settledB tMPD.sch vodVal = true ∧ settledB tMPD.sch scteVal = true ∧ settledB tMPD.sch liveVal = true := by
  decide +kernel

theorem vodVal_plain : xnames tMPD.sch vodVal = [] ∧ foreign tMPD.sch vodVal = [] := by decide +kernel

/-- Both documents have no floating-point numbers and are read as the same with any conversions. -/
theorem vodVal_any (io : FloatIO) : unmarshalDoc io tMPD.sch vodDoc = .ok vodVal := by krfl

theorem scteVal_any (io : FloatIO) : unmarshalDoc io tMPD.sch scteDoc = .ok scteVal := by krfl

/-- The manifest of `vodDoc`, written and read. -/
example (io : FloatIO) (hio : GoFloats io) : ∃ doc' w, writeDoc io tMPD.sch vodVal [ch%' '] true = .ok doc' ∧
    unmarshalDoc io tMPD.sch doc' = .ok w ∧ Returned [ch%' '] tMPD.sch vodVal w :=
  C49_plain_partial io hio vodDoc vodVal (vodVal_any io) (settledB_sound _ _ vodVal_settled.1) vodVal_plain.1 vodVal_plain.2 _
    (by simp [IsWs]) true

/-- The manifest of `scteDoc`, which has captured elements and attributes. -/
example (io : FloatIO) (hio : GoFloats io) : ∃ doc' w, writeDoc io tMPD.sch scteVal [] false = .ok doc' ∧
    unmarshalDoc io tMPD.sch doc' = .ok w ∧ Returned [] tMPD.sch scteVal w :=
  C49_rewrite_partial io hio scteDoc scteVal (scteVal_any io) (settledB_sound _ _ vodVal_settled.2.1) scteExt
    scteVal_ok.2.2.2 (nsB_sound _ _ _ _ _ _ scteVal_ok.2.2.1) [] (by simp [IsWs]) false

end Verif.Bind
