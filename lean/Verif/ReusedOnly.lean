import Verif.Reused

/-!
C94 in both directions: what `Onto` says about the new value determines it.
-/
namespace Verif.Bind

open Verif.Xml

/-- There is at most one value that `Onto` allows. -/
def OntoOne (io : FloatIO) (s : Sch) : Prop :=
  ∀ t, isLeafT t = false → once s t = true → hgt s < maxDepth → ∀ v w w', Typed s v → Onto io s v t w → Onto io s v t w' → w = w'

theorem ontoOne_simple (io : FloatIO) (k : Kind) : OntoOne io (.simple k) := by
  intro t _ _ _ v w w' _ h h'
  cases h with
  | simple h =>
    cases h' with
    | simple h' => rw [h] at h'; injection h'

theorem ontoOne_ptr (io : FloatIO) (s : Sch) (hok : s.ok = true) (h : OntoOne io s) : OntoOne io (.ptr s) := by
  intro t ht ho hd v w w' hv h1 h2
  simp only [once] at ho
  simp only [hgt] at hd
  cases h1 with
  | new h1 =>
    cases h2 with
    | new h2 => rw [h t ht ho (by omega) _ _ _ (zero_typed s hok) h1 h2]
  | ptr h1 =>
    cases h2 with
    | ptr h2 => rw [h t ht ho (by omega) _ _ _ (by simpa only [Typed] using hv) h1 h2]

theorem attrs_one (io : FloatIO) (k : Kind) {as : List Attr} {ws ws' : List Val}
    (h : List.Forall₂ (fun a w => readSimpleAttr io k a.value = .ok w) as ws)
    (h' : List.Forall₂ (fun a w => readSimpleAttr io k a.value = .ok w) as ws') : ws = ws' := by
  induction h generalizing ws' with
  | nil => cases h'; rfl
  | cons h1 _ ih =>
    cases h' with
    | cons h2 h3 =>
      rw [h1] at h2
      injection h2 with h2
      rw [h2, ih h3]

theorem attrOnto_one (io : FloatIO) (s : Sch) (v : Val) (as : List Attr) (w w' : Val) (h : AttrOnto io s v as w)
    (h' : AttrOnto io s v as w') : w = w' := by
  unfold AttrOnto at h h'
  split at h
  all_goals first
    | (obtain ⟨ws, h1, rfl⟩ := h
       obtain ⟨ws', h2, rfl⟩ := h'
       rw [attrs_one io _ h1 h2])
    | exact h.elim

theorem says_one (io : FloatIO) (s : Sch) (hc : Corr io s) (hs : hgt s + 1 < maxDepth) {ts : List XTree} {m m' : List Val}
    (hl : ∀ t ∈ ts, isLeafT t = false) (ho : ∀ t ∈ ts, once s t = true) (h : List.Forall₂ (Says io s) ts m)
    (h' : List.Forall₂ (Says io s) ts m') : m = m' := by
  induction h generalizing m' with
  | nil => cases h'; rfl
  | cons h1 _ ih =>
    cases h' with
    | cons h2 h3 =>
      have e := hc _ (hl _ List.mem_cons_self) (ho _ List.mem_cons_self) true 0 (Or.inl rfl) (by omega)
      have e1 := (e _).2 h1
      have e2 := (e _).2 h2
      rw [e1] at e2
      injection e2 with e2
      rw [e2, ih (fun t ht => hl t (by simp [ht])) (fun t ht => ho t (by simp [ht])) h3]

theorem ontoOne_struct (io : FloatIO) (tn : Bytes) (xn : Option FInfo) (F : List FInfo) (S : List Sch) (hs : StructRt xn F S)
    (hok : oks S = true) (hsub : ∀ s ∈ S, (∀ s', s ≠ .slice s') → elemShape s = true → OntoOne io s)
    (hsubl : ∀ s, .slice s ∈ S → elemShape (.slice s) = true → Corr io s) (hh : ∀ s ∈ S, hgt s ≤ hgts S) :
    OntoOne io (.struct tn xn F S) := by
  intro t ht ho hd v w w' hv h h'
  simp only [hgt] at hd
  have hsok : (Sch.struct tn xn F S).ok = true := by simp [Sch.ok, hs.len, hok]
  obtain ⟨xv, vs, rfl, hf⟩ := struct_fields hsok hv
  cases h with
  | @struct _ _ _ _ n as b a kids en eb ea _ _ ws name len kept attr any text inner none one list =>
  cases h' with
  | @struct _ _ _ _ _ _ _ _ _ _ _ _ _ _ ws' name' len' kept' attr' any' text' inner' none' one' list' =>
  simp only [once] at ho
  congr 1
  refine List.ext_getElem? fun i => ?_
  cases hi : F[i]? with
  | none =>
    have hl := List.getElem?_eq_none_iff.1 hi
    rw [List.getElem?_eq_none_iff.2 (by omega), List.getElem?_eq_none_iff.2 (by omega)]
  | some f =>
  obtain ⟨s, hsi⟩ : ∃ s, S[i]? = some s := get_of_lt (by rw [← hs.len]; exact lt_of_get hi)
  obtain ⟨v, hvi⟩ : ∃ v, vs[i]? = some v := get_of_lt (by rw [hf.len_vs, ← hs.len]; exact lt_of_get hi)
  obtain ⟨w, hwi⟩ : ∃ w, ws[i]? = some w := get_of_lt (by rw [len]; exact lt_of_get hi)
  obtain ⟨w', hwi'⟩ : ∃ w, ws'[i]? = some w := get_of_lt (by rw [len']; exact lt_of_get hi)
  have hty : Typed s (held s v) := by
    have : cur S vs i = some (held s v) := by simp only [cur, hsi, hvi, held]
    exact cur_typed hf hsi this
  by_cases htc : Touched F as kids f.grp
  swap
  · rw [kept i f hi htc, kept' i f hi htc]
  have hr := hs.rt i f s hi hsi
  cases hm : f.mode with
  | attr =>
    rw [hwi, hwi', attrOnto_one io s _ _ _ _ (attr i f s v w hi hsi hvi hwi htc hm) (attr' i f s v w' hi hsi hvi hwi' htc hm)]
  | anyAttr =>
    have hss := fieldRt_any hr hm
    subst hss
    obtain ⟨l, hl, -⟩ := slice_typed hty
    rw [any i f _ v l hi hsi hvi htc hm hl, any' i f _ v l hi hsi hvi htc hm hl]
  | chardata => rw [text i f hi hm, text' i f hi hm]
  | innerxml => rw [inner i f hi hm, inner' i f hi hm]
  | elem =>
    have hsh := (fieldRt_elem hr hm).1
    have hg := hh s (List.mem_of_getElem? hsi)
    by_cases hk : kidsFor f kids = []
    · rw [none i f s v hi hsi hvi htc hm hk, none' i f s v hi hsi hvi htc hm hk]
    · by_cases hns : ∀ s', s ≠ .slice s'
      · obtain ⟨t, htk⟩ := List.exists_mem_of_ne_nil _ hk
        rw [hwi, hwi', hsub s (List.mem_of_getElem? hsi) hns hsh t (kidsFor_elems htk) (onces_kid ho hi hsi hm htk) (by omega) _ _ _ hty
          (one i f s v w t hi hsi hvi hwi hm hns htk) (one' i f s v w' t hi hsi hvi hwi' hm hns htk)]
      · obtain ⟨s', rfl⟩ : ∃ s', s = .slice s' := by
          by_contra hc
          exact hns fun s' hs' => hc ⟨s', hs'⟩
        obtain ⟨l, hl, -⟩ := slice_typed hty
        obtain ⟨m, h1, h2⟩ := list i f s' v l hi hsi hvi hm hk hl
        obtain ⟨m', h1', h2'⟩ := list' i f s' v l hi hsi hvi hm hk hl
        simp only [hgt] at hg
        rw [h1, h1', says_one io s' (hsubl s' (List.mem_of_getElem? hsi) hsh) (by omega) (fun t ht => kidsFor_elems ht)
          (fun t ht => by simpa only [once] using onces_kid ho hi hsi hm ht) h2 h2']

/-- `OntoOne` for the type of a field that is no list. -/
def OntoOneF (io : FloatIO) : Sch → Prop
  | .slice _ => True
  | s => elemShape s = true → OntoOne io s

mutual
theorem ontoOne_rt (io : FloatIO) (L : List Bytes) : ∀ s : Sch, s.rt L = true → s.ok = true →
    (oneShape s = true → OntoOne io s) ∧ OntoOneF io s
  | .simple k, _, _ => ⟨fun _ => ontoOne_simple io k, fun _ => ontoOne_simple io k⟩
  | .struct tn xn F S, h, hok => by
    simp only [Sch.rt, Bool.and_eq_true] at h
    simp only [Sch.ok, Bool.and_eq_true] at hok
    have h1 := ontoOne_rts io L S h.2 hok.2
    have h2 := corr_rts io L S h.2 hok.2
    have hc : OntoOne io (.struct tn xn F S) := ontoOne_struct io tn xn F S (StructRt.of h.1.1) hok.2
      (fun s hs hns he => by
        have := h1 s hs
        cases s <;> first | exact this he | exact absurd rfl (hns _))
      (fun s hs he => h2 _ hs he) (hgts_le S)
    exact ⟨fun _ => hc, fun _ => hc⟩
  | .ptr s, h, hok => by
    simp only [Sch.rt] at h
    simp only [Sch.ok] at hok
    have := ontoOne_rt io L s h hok
    exact ⟨fun h => by simp [oneShape] at h, fun he => ontoOne_ptr io s hok (this.1 he)⟩
  | .slice s, _, _ => ⟨fun h => by simp [oneShape] at h, trivial⟩
  | .name, _, _ => ⟨fun h => by simp [oneShape] at h, fun h => by simp [elemShape, oneShape] at h⟩
  | .attr, _, _ => ⟨fun h => by simp [oneShape] at h, fun h => by simp [elemShape, oneShape] at h⟩
  | .bad _, _, _ => ⟨fun h => by simp [oneShape] at h, fun h => by simp [elemShape, oneShape] at h⟩
theorem ontoOne_rts (io : FloatIO) (L : List Bytes) : ∀ ss : List Sch, rts L ss = true → oks ss = true →
    ∀ s ∈ ss, OntoOneF io s
  | [], _, _ => by simp
  | t :: ss, h, hok => by
    simp only [rts, Bool.and_eq_true] at h
    simp only [oks, Bool.and_eq_true] at hok
    have h1 := (ontoOne_rt io L t h.1 hok.1).2
    have h2 := ontoOne_rts io L ss h.2 hok.2
    intro s hs
    rcases List.mem_cons.1 hs with rfl | hs
    · exact h1
    · exact h2 s hs
end

/-- C94 in both directions: reading into a value gives exactly what `Onto` says, provided the document can be read at all. -/
theorem C94_document_iff (io : FloatIO) (L : List Bytes) (tn : Bytes) (xn : Option FInfo) (F : List FInfo) (S : List Sch)
    (hr : (Sch.struct tn xn F S).rt L = true) (hok : (Sch.struct tn xn F S).ok = true)
    (hh : hgt (.struct tn xn F S) < maxDepth) (doc : Bytes) (t : XTree) (ht : IsDoc doc t)
    (ho : once (.struct tn xn F S) t = true) (v : Val) (hv : Typed (.struct tn xn F S) v) (w : Val) :
    unmarshalInto io (.struct tn xn F S) v doc = .ok w ↔
      (∃ u, Says io (.struct tn xn F S) t u) ∧ Onto io (.struct tn xn F S) v t w := by
  have hc := C69_document io L tn xn F S hr hok hh doc t ht ho
  have ha := C94_accepts io (.struct tn xn F S) hok v hv doc
  have hd := C94_document io L tn xn F S hr hok hh doc t ht ho v hv
  constructor
  · intro h
    obtain ⟨u, hu⟩ := ha.1 ⟨w, h⟩
    exact ⟨⟨u, (hc u).1 hu⟩, hd w h⟩
  · rintro ⟨⟨u, hu⟩, h⟩
    obtain ⟨w', hw'⟩ := ha.2 ⟨u, (hc u).2 hu⟩
    have hleaf : isLeafT t = false := by
      obtain ⟨_, ⟨n, as, b, a, kids, en, eb, ea, rfl⟩, _⟩ := ht
      rfl
    rw [hw', (ontoOne_rt io L _ hr hok).1 rfl t hleaf ho hh v w w' hv h (hd w' hw')]

/-- C94 in both directions for manifests. -/
theorem C94_manifest_iff (io : FloatIO) (doc : Bytes) (t : XTree) (ht : IsDoc doc t) (ho : once tMPD.sch t = true) (v : Val)
    (hv : Typed tMPD.sch v) (w : Val) :
    unmarshalInto io tMPD.sch v doc = .ok w ↔ (∃ u, Says io tMPD.sch t u) ∧ Onto io tMPD.sch v t w := by
  have h1 := mpd_rt
  have h2 := mpd_ok
  have h3 := mpd_hgt
  obtain ⟨tn, xn, F, S, e⟩ : ∃ tn xn F S, tMPD.sch = .struct tn xn F S := ⟨_, _, _, _, rfl⟩
  rw [e] at h1 h2 h3 ho hv ⊢
  exact C94_document_iff io mpdLocs tn xn F S h1 h2 h3 doc t ht ho v hv w

/-- The document of the examples, read into a value that it was read into before. -/
example (io : FloatIO) : ∃ v w, unmarshalDoc io tMPD.sch exDoc = .ok v ∧ unmarshalInto io tMPD.sch v exDoc = .ok w ∧
    ∀ w', ((∃ u, Says io tMPD.sch exTree u) ∧ Onto io tMPD.sch v exTree w') ↔ w' = w := by
  obtain ⟨v, hv⟩ := ex_read io
  have hty := unmarshalDoc_typed io _ _ _ mpd_ok hv
  obtain ⟨w, hw⟩ := (C94_accepts io tMPD.sch mpd_ok v hty exDoc).2 ⟨v, hv⟩
  refine ⟨v, w, hv, hw, fun w' => (C94_manifest_iff io exDoc exTree exDoc_is (by decide +kernel) v hty w').symm.trans ?_⟩
  rw [hw, Except.ok.injEq, eq_comm]

end Verif.Bind
