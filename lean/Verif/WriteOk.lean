import Verif.EncodeOk
import Verif.ReadWrite

/-!
C39: when a manifest can be written.  The names that the library chooses itself are always accepted by the encoder; so are all
names captured in reading.  What is left is the panic on nil embedded pointers.
-/
namespace Verif.Bind

open Verif Verif.Xml

instance (n : Name) : Decidable (NameFine n) := by unfold NameFine; infer_instance

/-- A captured name without colon is accepted. -/
theorem LocOk.fine {n : Name} (h : LocOk n) : NameFine n :=
  ⟨h.1, Or.inl (by rw [splitPrefixed_colonless h.2])⟩

mutual
/-- The names in the tags are accepted by the encoder. -/
def tagsFine (fi : Option FInfo) : Sch → Bool
  | .simple _ => decide (NameFine (startName none ⟨[], []⟩ fi []))
  | .ptr s => tagsFine fi s
  | .slice s => tagsFine fi s
  | .struct tn xn infos subs => decide (NameFine (startName xn ⟨[], []⟩ fi tn)) && tagsFines infos subs
  | _ => true
/-- The same for all fields that are elements. -/
def tagsFines : List FInfo → List Sch → Bool
  | fi :: fis, s :: ss => (fi.mode != .elem || tagsFine (some fi) s) && tagsFines fis ss
  | _, _ => true
end

theorem mpd_tagsFine : tagsFine none tMPD.sch = true := by decide +kernel

theorem concatM_fine : ∀ (l : List (Except MErr (List Item))) (items : List Item), concatM l = .ok items →
    (∀ a, .ok a ∈ l → ItemsFine a) → ItemsFine items
  | [], items, h, _ => by injection h with h; subst h; simp [ItemsFine]
  | .error e :: l, items, h, _ => by simp [concatM] at h
  | .ok a :: l, items, h, hl => by
    simp only [concatM] at h
    split at h
    · cases h
    · rename_i b hb
      injection h with h
      subst h
      exact itemsFine_append (hl a (by simp)) (concatM_fine l b hb fun c hc => hl c (by simp [hc]))

theorem charText_fine (io : FloatIO) : ∀ (s : Sch) (v : Val), ItemsFine (charText io s v)
  | .simple k, v => by
    unfold charText
    split <;> simp [ItemsFine, ItemFine]
  | .ptr s, v => by
    cases v with
    | ptr o =>
      cases o with
      | none => simp [charText, ItemsFine]
      | some v => simp only [charText]; exact charText_fine io s v
    | _ => simp [charText, ItemsFine]
  | .slice _, v => by simp [charText, ItemsFine]
  | .struct _ _ _ _, v => by simp [charText, ItemsFine]
  | .name, v => by simp [charText, ItemsFine]
  | .attr, v => by simp [charText, ItemsFine]
  | .bad _, v => by simp [charText, ItemsFine]

theorem rawText_fine {s : Sch} {v : Val} {items : List Item} (h : rawText s v = .ok items) : ItemsFine items := by
  unfold rawText at h
  split at h
  · injection h with h; subst h; simp [ItemsFine, ItemFine]
  · cases h

/-- The captured names are accepted. -/
def CapturedFine (l : List Name) : Prop := ∀ n ∈ l, n.loc = [] ∨ NameFine n

theorem startName_fine {xn fi : Option FInfo} {xv : Name} {tn : Bytes} (h : NameFine (startName xn ⟨[], []⟩ fi tn))
    (hx : tagless xn = true → xv.loc = [] ∨ NameFine xv) : NameFine (startName xn xv fi tn) := by
  by_cases ht : tagless xn = true
  · rcases hx ht with h1 | h1
    · rw [startName_empty _ _ _ _ fun _ => h1]; exact h
    · cases xn with
      | none => simp [tagless] at ht
      | some x => rw [startName_captured x (by simpa [tagless] using ht) _ _ _ h1.1]; exact h1
  · rw [startName_empty _ _ _ _ fun h => absurd h ht]; exact h

mutual
theorem marshalV_fine (io : FloatIO) : ∀ (s : Sch) (ns : Bytes) (fi : Option FInfo) (v : Val) (items : List Item),
    tagsFine fi s = true → CapturedFine (xnames s v) → marshalV io ns fi s v = .ok items → ItemsFine items
  | .simple k, ns, fi, v, items, hf, _, h => by
    have hf : NameFine _ := of_decide_eq_true hf
    unfold marshalV at h
    split at h
    · cases h
    · injection h with h
      subst h
      simp [ItemsFine, ItemFine, hf]
  | .ptr s, ns, fi, v, items, hf, hx, h => by
    cases v with
    | ptr o =>
      cases o with
      | none => simp only [marshalV] at h; injection h with h; subst h; simp [ItemsFine]
      | some v =>
        simp only [marshalV, xnames, tagsFine] at h hx hf
        exact marshalV_fine io s ns fi v items hf hx h
    | _ => simp [marshalV] at h
  | .slice s, ns, fi, v, items, hf, hx, h => by
    cases v with
    | slice l =>
      simp only [marshalV, xnames, tagsFine] at h hx hf
      refine concatM_fine _ _ h fun a ha => ?_
      obtain ⟨v, hv, e⟩ := List.mem_map.1 ha
      split at e
      · injection e with e; subst e; simp [ItemsFine]
      · exact marshalV_fine io s ns fi v a hf (fun n hn => hx n (List.mem_flatMap.2 ⟨v, hv, hn⟩)) e
    | _ => simp [marshalV] at h
  | .struct tn xn F S, ns, fi, v, items, hf, hx, h => by
    cases v with
    | struct xv vs =>
      simp only [marshalV, tagsFine, xnames, Bool.and_eq_true, decide_eq_true_eq] at h hf hx
      split at h
      · cases h
      split at h
      · cases h
      rename_i attrs _ _ kids hk
      injection h with h
      subst h
      have hn : NameFine (startName xn xv fi tn) := startName_fine hf.1 fun ht => hx xv (by simp [ht])
      simp only [ItemsFine, ItemFine, and_true]
      exact ⟨hn, marshalFields_fine io S _ F vs kids hf.2 (fun n hn => hx n (by simp [hn])) hk⟩
    | _ => simp [marshalV] at h
  | .name, ns, fi, v, items, _, _, h => by simp [marshalV] at h
  | .attr, ns, fi, v, items, _, _, h => by simp [marshalV] at h
  | .bad _, ns, fi, v, items, _, _, h => by simp [marshalV] at h
theorem marshalFields_fine (io : FloatIO) : ∀ (S : List Sch) (ns : Bytes) (F : List FInfo) (vs : List Val) (items : List Item),
    tagsFines F S = true → CapturedFine (xnamess S vs) → marshalFields io ns F S vs = .ok items → ItemsFine items
  | [], ns, F, vs, items, _, _, h => by
    cases F <;> (simp only [marshalFields] at h; injection h with h; subst h; simp [ItemsFine])
  | s :: S, ns, F, vs, items, hf, hx, h => by
    cases F with
    | nil => simp only [marshalFields] at h; injection h with h; subst h; simp [ItemsFine]
    | cons f F =>
      cases vs with
      | nil => simp only [marshalFields] at h; injection h with h; subst h; simp [ItemsFine]
      | cons v vs =>
        simp only [marshalFields, tagsFines, xnamess, Bool.and_eq_true, Bool.or_eq_true, bne_iff_ne] at h hf hx
        split at h
        · cases h
        rename_i a ha
        split at h
        · cases h
        rename_i b hb
        injection h with h
        subst h
        refine itemsFine_append ?_ (marshalFields_fine io S ns F vs b hf.2 (fun n hn => hx n (by simp [hn])) hb)
        unfold fieldItems at ha
        split at ha
        · injection ha with ha; subst ha; simp [ItemsFine]
        rename_i h1
        split at ha
        · injection ha with ha; subst ha; exact charText_fine io s v
        rename_i h2
        split at ha
        · exact rawText_fine ha
        rename_i h3
        split at ha
        · injection ha with ha; subst ha; simp [ItemsFine]
        have hm : f.mode = .elem := by
          cases hm : f.mode <;> simp_all
        exact marshalV_fine io s ns (some f) v a (hf.1.resolve_left fun h => h hm) (fun n hn => hx n (by simp [hn])) ha
end

/-- **C39**, for manifests built in any way: if the element names that were set explicitly are accepted as such, then writing
succeeds exactly if no embedded pointer is nil. -/
theorem C39_write_iff (io : FloatIO) (v : Val) (ht : Typed tMPD.sch v) (hx : CapturedFine (xnames tMPD.sch v)) (indent : Bytes)
    (hdr : Bool) : (∃ out, writeDoc io tMPD.sch v indent hdr = .ok out) ↔ Whole tMPD.sch v := by
  rw [← C39_marshal io v ht]
  unfold writeDoc
  constructor
  · rintro ⟨out, h⟩
    split at h
    · cases h
    · rename_i items hi
      exact ⟨items, hi⟩
  · rintro ⟨items, h⟩
    rw [h]
    dsimp only
    obtain ⟨doc, hd⟩ := encode_fine [] indent items (marshalV_fine io _ _ _ _ _ mpd_tagsFine hx h)
    rw [hd]
    exact ⟨_, rfl⟩

mutual
theorem came_captured (L : List Bytes) : ∀ (s : Sch) (fi : Option FInfo) (v : Val), s.rt L = true → Came wfCont fi s v →
    CapturedFine (xnames s v)
  | .ptr s, fi, v, hr, h => by
    cases v with
    | ptr o =>
      cases o with
      | none => simp [xnames, CapturedFine]
      | some v => simp only [Came, xnames, Sch.rt] at h hr ⊢; exact came_captured L s fi v hr h.2
    | _ => simp [xnames, CapturedFine]
  | .slice s, fi, v, hr, h => by
    cases v with
    | slice l =>
      simp only [Came, xnames, Sch.rt] at h hr ⊢
      intro n hn
      obtain ⟨v, hv, hn⟩ := List.mem_flatMap.1 hn
      exact came_captured L s fi v hr (h v hv).2 n hn
    | _ => simp [xnames, CapturedFine]
  | .struct tn xn F S, fi, v, hr, h => by
    cases v with
    | struct xv vs =>
      simp only [Came, xnames, Sch.rt, Bool.and_eq_true] at h hr ⊢
      have hst := StructRt.of hr.1.1
      intro n hn
      rcases List.mem_append.1 hn with hn | hn
      · split at hn
        · rename_i htl
          simp only [List.mem_singleton] at hn
          subst hn
          exact (h.1.2 htl).imp_right fun h => LocOk.fine h.1
        · simp at hn
      · exact cames_captured L S F vs hr.2 hst.len (fun i f s h1 h2 => hst.rt i f s h1 h2) h.2.2 n hn
    | _ => simp [xnames, CapturedFine]
  | .simple _, fi, v, _, _ => by simp [xnames, CapturedFine]
  | .name, fi, v, _, _ => by simp [xnames, CapturedFine]
  | .attr, fi, v, _, _ => by simp [xnames, CapturedFine]
  | .bad _, fi, v, _, _ => by simp [xnames, CapturedFine]
theorem cames_captured (L : List Bytes) : ∀ (S : List Sch) (F : List FInfo) (vs : List Val), rts L S = true →
    F.length = S.length → (∀ (i : Nat) (f : FInfo) (s : Sch), F[i]? = some f → S[i]? = some s → fieldRt f s = true) →
    Cames wfCont F S vs → CapturedFine (xnamess S vs)
  | [], F, vs, _, _, _, _ => by simp [xnamess, CapturedFine]
  | s :: S, F, vs, hr, hl, hf, h => by
    cases vs with
    | nil => simp [xnamess, CapturedFine]
    | cons v vs =>
      cases F with
      | nil => simp at hl
      | cons f F =>
        simp only [Cames, rts, xnamess, Bool.and_eq_true] at h hr ⊢
        intro n hn
        rcases List.mem_append.1 hn with hn | hn
        · by_cases hm : f.mode = .innerxml
          · have := hf 0 f s rfl rfl
            unfold fieldRt at this
            rw [hm] at this
            cases s <;> simp_all [xnames]
          · exact came_captured L s (some f) v hr.1 (h.1.1 hm) n hn
        · exact cames_captured L S F vs hr.2 (by simpa using hl)
            (fun i f s h1 h2 => hf (i + 1) f s (by simpa using h1) (by simpa using h2)) h.2 n hn
end

/-- **C39**, in part: a manifest that was read from a document, whatever the document, is written without error, with any
indentation and with or without a header, exactly if no embedded pointer in it is nil.  Otherwise the library panics
(`C39_refuted`). -/
theorem C39_read_partial (io : FloatIO) (doc : Bytes) (v : Val) (h : unmarshalDoc io tMPD.sch doc = .ok v) (indent : Bytes)
    (hdr : Bool) : (∃ out, writeDoc io tMPD.sch v indent hdr = .ok out) ↔ Whole tMPD.sch v :=
  C39_write_iff io v (unmarshalDoc_typed io _ _ _ mpd_ok h)
    (came_captured mpdLocs _ _ _ mpd_rt (unmarshalDoc_came io mpdLocs _ _ _ mpd_ok mpd_rt mpd_zrt (by decide +kernel) h))
    indent hdr

/-! ### Where embedded pointers are -/

mutual
/-- The names of the types of the structs in a value. -/
def typeNames : Sch → Val → List Bytes
  | .ptr s, .ptr (some v) => typeNames s v
  | .slice s, .slice l => l.flatMap fun v => typeNames s v
  | .struct tn _ _ subs, .struct _ vs => tn :: typeNamess subs vs
  | _, _ => []
/-- The same for all fields. -/
def typeNamess : List Sch → List Val → List Bytes
  | s :: ss, v :: vs => typeNames s v ++ typeNamess ss vs
  | _, _ => []
end

mutual
/-- Only the type `t` has an embedded pointer. -/
def embeds (t : Bytes) : Sch → Bool
  | .ptr s => embeds t s
  | .slice s => embeds t s
  | .struct tn _ infos subs => (tn == t || infos.all fun f => f.grp == none) && infos.length == subs.length && embedss t subs
  | _ => true
/-- The same for several types. -/
def embedss (t : Bytes) : List Sch → Bool
  | [] => true
  | s :: l => embeds t s && embedss t l
end

/-- `AlternativeMPDReplaceEventType` (`/repo/mpd/mpd.go`) is the only type with an embedded pointer. -/
theorem mpd_embeds : embeds (b!"AlternativeMPDReplaceEventType") tMPD.sch = true := by decide +kernel

mutual
theorem whole_of_names (t : Bytes) : ∀ (s : Sch) (v : Val), embeds t s = true → Typed s v → t ∉ typeNames s v → Whole s v
  | .ptr s, v, he, ht, hn => by
    cases v with
    | ptr o =>
      cases o with
      | none => simp [Whole]
      | some v =>
        simp only [embeds, Typed, typeNames, Whole] at he ht hn ⊢
        exact whole_of_names t s v he ht hn
    | _ => simp [Typed] at ht
  | .slice s, v, he, ht, hn => by
    cases v with
    | slice l =>
      simp only [embeds, Typed, typeNames, Whole] at he ht hn ⊢
      exact fun v hv => whole_of_names t s v he (ht v hv) fun h => hn (List.mem_flatMap.2 ⟨v, hv, h⟩)
    | _ => simp [Typed] at ht
  | .struct tn xn F S, v, he, ht, hn => by
    cases v with
    | struct xv vs =>
      simp only [embeds, Typed, typeNames, Whole, Bool.and_eq_true, Bool.or_eq_true, beq_iff_eq, List.all_eq_true] at he ht hn ⊢
      have hg : ∀ f ∈ F, f.grp = none := he.1.1.resolve_left fun h => hn (by simp [h])
      refine wholes_of_names t S vs he.2 ht.2 ?_ fun h => hn (by simp [h])
      intro i v hv
      obtain ⟨f, hf⟩ := get_of_lt (l := F) (i := i) (by
        have := typeds_length S vs ht.2; have := lt_of_get hv; have := he.1.2; omega)
      exact (ht.1 i i f f v v hf hf hv hv).2 (hg f (List.mem_of_getElem? hf))
    | _ => simp [Typed] at ht
  | .simple _, v, _, _, _ => by simp [Whole]
  | .name, v, _, _, _ => by simp [Whole]
  | .attr, v, _, _, _ => by simp [Whole]
  | .bad _, v, _, _, _ => by simp [Whole]
theorem wholes_of_names (t : Bytes) : ∀ (S : List Sch) (vs : List Val), embedss t S = true → Typeds S vs →
    (∀ (i : Nat) (v : Val), vs[i]? = some v → v.isAbsent = false) → t ∉ typeNamess S vs → Wholes S vs
  | [], vs, _, _, _, _ => by simp [Wholes]
  | s :: S, vs, he, ht, ha, hn => by
    cases vs with
    | nil => simp [Wholes]
    | cons v vs =>
      simp only [embedss, Typeds, typeNamess, Wholes, Bool.and_eq_true, List.mem_append, not_or] at he ht hn ⊢
      have h0 := ha 0 v rfl
      exact ⟨h0, whole_of_names t s v he.1 (ht.1.resolve_left (by simp [h0])) hn.1,
        wholes_of_names t S vs he.2 ht.2 (fun i w hw => ha (i + 1) w (by simpa using hw)) hn.2⟩
end

/-- **C39**, in part: every manifest that was read and has no `ReplacePresentation` (the only element of a type with an embedded
pointer) can be written. -/
theorem C39_common_partial (io : FloatIO) (doc : Bytes) (v : Val) (h : unmarshalDoc io tMPD.sch doc = .ok v)
    (hn : b!"AlternativeMPDReplaceEventType" ∉ typeNames tMPD.sch v) (indent : Bytes) (hdr : Bool) :
    ∃ out, writeDoc io tMPD.sch v indent hdr = .ok out :=
  (C39_read_partial io doc v h indent hdr).2
    (whole_of_names _ _ _ mpd_embeds (unmarshalDoc_typed io _ _ _ mpd_ok h) hn)

/-- The manifests of `vodDoc` and `scteDoc`. -/
example (io : FloatIO) (indent : Bytes) (hdr : Bool) : ∃ out, writeDoc io tMPD.sch scteVal indent hdr = .ok out :=
  C39_common_partial io scteDoc scteVal (scteVal_any io) (by decide +kernel) indent hdr

example (io : FloatIO) (indent : Bytes) (hdr : Bool) : ∃ out, writeDoc io tMPD.sch vodVal indent hdr = .ok out :=
  C39_common_partial io vodDoc vodVal (vodVal_any io) (by decide +kernel) indent hdr

/-- A name that the encoder does not accept, so that the condition of `C39_write_iff` is needed. -/
example : ¬ NameFine ⟨b!"urn:x", b!"1x:Signal"⟩ ∧
    (encode [] [] [.elem ⟨b!"urn:x", b!"1x:Signal"⟩ [] []]).toOption = none := by decide +kernel

end Verif.Bind
