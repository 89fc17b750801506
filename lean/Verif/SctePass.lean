import Verif.RtCheck

/-!
C42: the namespace of an SCTE-35 section is passed through.  The types of SCTE-35 have an `XMLName` field without a name in
its tag (`/repo/mpd/scte35.go` 17-30), which takes the name of the element that is read and gives the name of the element
that is written.
-/
namespace Verif.Bind

open Verif.Xml

mutual
/-- The names in `XMLName` fields without a tag, in the order in which elements are written. -/
def xnames : Sch → Val → List Name
  | .ptr s, .ptr (some v) => xnames s v
  | .slice s, .slice l => l.flatMap fun v => xnames s v
  | .struct _ xn _ subs, .struct xv vs => (if tagless xn then [xv] else []) ++ xnamess subs vs
  | _, _ => []
/-- The same for all fields. -/
def xnamess : List Sch → List Val → List Name
  | s :: ss, v :: vs => xnames s v ++ xnamess ss vs
  | _, _ => []
end

theorem xnames_attr : ∀ (l : List Val), (l.flatMap fun v => xnames .attr v) = []
  | [] => rfl
  | v :: l => by
    rw [List.flatMap_cons, xnames_attr l]
    cases v <;> simp [xnames]

mutual
theorem back_xnames : ∀ (s : Sch) (v w : Val), Back s v w → (∀ n ∈ xnames s v, n.space ≠ [] ∧ n.loc ≠ []) →
    xnames s w = xnames s v
  | .simple k, v, w, _, _ => by simp [xnames]
  | .ptr s, v, w, h, hn => by
    cases v with
    | ptr o =>
      cases w with
      | ptr q =>
        cases o <;> cases q <;> simp only [Back] at h
        · rfl
        · simp only [xnames] at hn ⊢
          exact back_xnames s _ _ h hn
      | _ => cases o <;> simp [Back] at h
    | _ => simp [Back] at h
  | .slice s, v, w, h, hn => by
    cases v with
    | slice l =>
      cases w with
      | slice m =>
        simp only [Back] at h
        simp only [xnames] at hn ⊢
        split at h
        · rename_i hs
          cases s <;> simp [Sch.isAttr] at hs
          rw [xnames_attr, xnames_attr]
        · induction h with
          | nil => rfl
          | cons h1 _ ih =>
            rw [List.flatMap_cons] at hn
            rw [List.flatMap_cons, List.flatMap_cons, back_xnames s _ _ h1 fun n h => hn n (List.mem_append_left _ h),
              ih fun n h => hn n (List.mem_append_right _ h)]
      | _ => simp [Back] at h
    | _ => simp [Back] at h
  | .struct tn xn F S, v, w, h, hn => by
    cases v with
    | struct xv vs =>
      cases w with
      | struct xw ws =>
        simp only [Back] at h
        simp only [xnames] at hn ⊢
        rw [backs_xnamess S vs ws h.2 fun n h => hn n (List.mem_append_right _ h)]
        congr 1
        cases ht : tagless xn with
        | false => simp
        | true =>
          rw [ht] at hn
          have h1 := hn xv (by simp)
          cases xn with
          | none => simp [tagless] at ht
          | some x =>
            have := (h.1 x rfl).2 (by simpa [tagless] using ht) h1.2 h1.1
            rw [this]
      | _ => simp [Back] at h
    | _ => simp [Back] at h
  | .name, v, w, _, _ => by simp [xnames]
  | .attr, v, w, _, _ => by simp [xnames]
  | .bad _, v, w, _, _ => by simp [xnames]
theorem backs_xnamess : ∀ (S : List Sch) (vs ws : List Val), Backs S vs ws →
    (∀ n ∈ xnamess S vs, n.space ≠ [] ∧ n.loc ≠ []) → xnamess S ws = xnamess S vs
  | [], vs, ws, _, _ => by simp [xnamess]
  | s :: S, vs, ws, h, hn => by
    cases vs with
    | nil => simp [Backs] at h
    | cons v vs =>
      cases ws with
      | nil => simp [Backs] at h
      | cons w ws =>
        simp only [Backs] at h
        simp only [xnamess] at hn ⊢
        rw [back_xnames s v w h.1 fun n h => hn n (List.mem_append_left _ h),
          backs_xnamess S vs ws h.2 fun n h => hn n (List.mem_append_right _ h)]
end

mutual
theorem loose_xnames : ∀ (s : Sch) (v w : Val), Loose s v w → xnames s w = xnames s v
  | .simple k, v, w, _ => by simp [xnames]
  | .ptr s, v, w, h => by
    cases v with
    | ptr o =>
      cases w with
      | ptr q =>
        cases o <;> cases q <;> simp only [Loose] at h
        · rfl
        · rw [h]
        · rw [h]
        · simp only [xnames]
          exact loose_xnames s _ _ h
      | _ => cases o <;> simp only [Loose] at h <;> rw [h]
    | _ => simp only [Loose] at h; rw [h]
  | .slice s, v, w, h => by
    cases v with
    | slice l =>
      cases w with
      | slice m =>
        simp only [Loose] at h
        simp only [xnames]
        induction h with
        | nil => rfl
        | cons h1 _ ih => rw [List.flatMap_cons, List.flatMap_cons, loose_xnames s _ _ h1, ih]
      | _ => simp only [Loose] at h; rw [h]
    | _ => simp only [Loose] at h; rw [h]
  | .struct tn xn F S, v, w, h => by
    cases v with
    | struct xv vs =>
      cases w with
      | struct xw ws =>
        simp only [Loose] at h
        simp only [xnames]
        rw [looses_xnamess _ S F vs ws h.2, h.1]
      | _ => simp only [Loose] at h; rw [h]
    | _ => simp only [Loose] at h; rw [h]
  | .name, v, w, _ => by simp [xnames]
  | .attr, v, w, _ => by simp [xnames]
  | .bad _, v, w, _ => by simp [xnames]
theorem looses_xnamess (mix : Bool) : ∀ (S : List Sch) (F : List FInfo) (vs ws : List Val), Looses mix F S vs ws →
    xnamess S ws = xnamess S vs
  | [], F, vs, ws, _ => by simp [xnamess]
  | s :: S, F, vs, ws, h => by
    cases F with
    | nil => simp [Looses] at h
    | cons f F =>
      cases vs with
      | nil => simp [Looses] at h
      | cons v vs =>
        cases ws with
        | nil => simp [Looses] at h
        | cons w ws =>
          simp only [Looses] at h
          simp only [xnamess]
          rw [looses_xnamess mix S F vs ws h.2]
          rcases h.1 with h | ⟨_, _, a, p, q, rfl, rfl, _⟩
          · rw [loose_xnames s v w h]
          · congr 1
            cases s <;> simp [xnames]
end

/-- **C42**, reading: a struct with an `XMLName` field takes the name of the element, whatever its namespace. -/
theorem C42_captured (io : FloatIO) (top : Bool) (d : Nat) (tn : Bytes) (x : FInfo) (F : List FInfo) (S : List Sch)
    (v w : Val) (n : Name) (as : List Attr) (b a : Bytes) (kids : List XTree) (en : Name) (eb ea : Bytes)
    (h : readT io top d (.struct tn (some x) F S) v (.elem n as b a kids en eb ea) = .ok w) :
    ∃ vs, w = .struct n vs := by
  have body : ∀ d, readBody io n as (dataOf kids) (a.take (a.length - eb.length))
      (fun d infos subs vs => readKids io d infos subs vs kids) d (.struct tn (some x) F S) v = .ok w →
      ∃ vs, w = .struct n vs := by
    intro d h
    unfold readBody at h
    cases v with
    | struct xv vs =>
      dsimp only at h
      split at h
      · cases h
      · split at h
        · cases h
        · split at h
          · cases h
          · split at h
            · cases h
            · injection h with h
              exact ⟨_, h.symm⟩
    | _ => simp at h
  simp only [readT] at h
  cases top with
  | false =>
    rw [show place (readBody io n as (dataOf kids) (a.take (a.length - eb.length))
      (fun d infos subs vs => readKids io d infos subs vs kids)) false d (.struct tn (some x) F S) v =
      readBody io n as (dataOf kids) (a.take (a.length - eb.length))
      (fun d infos subs vs => readKids io d infos subs vs kids) d (.struct tn (some x) F S) v by
        cases v <;> rfl] at h
    exact body d h
  | true =>
    by_cases hd : maxDepth ≤ d
    · cases v <;> simp [place, hd] at h
    · rw [show place (readBody io n as (dataOf kids) (a.take (a.length - eb.length))
        (fun d infos subs vs => readKids io d infos subs vs kids)) true d (.struct tn (some x) F S) v =
        readBody io n as (dataOf kids) (a.take (a.length - eb.length))
        (fun d infos subs vs => readKids io d infos subs vs kids) d (.struct tn (some x) F S) v by
          cases v <;> simp [place, hd]] at h
      exact body d h

/-- **C42**, writing: a struct whose `XMLName` has no name in its tag is written as an element with the name in the field. -/
theorem C42_replayed (io : FloatIO) (ns : Bytes) (fi : Option FInfo) (tn : Bytes) (x : FInfo) (hx : x.loc = [])
    (F : List FInfo) (S : List Sch) (n : Name) (hn : n.loc ≠ []) (vs : List Val) (items : List Item)
    (h : marshalV io ns fi (.struct tn (some x) F S) (.struct n vs) = .ok items) :
    ∃ attrs kids, items = [.elem n attrs kids] := by
  have hst : startName (some x) n fi tn = n := by simp [startName, hx, hn]
  simp only [marshalV, hst] at h
  split at h
  · cases h
  · split at h
    · cases h
    · injection h with h
      exact ⟨_, _, h.symm⟩

/-- **C42**, in part: the names of SCTE-35 elements, with their namespaces, are the same after writing and reading.  The
conditions on the manifest are those of C30; in particular the elements of a section have the namespace of the section. -/
theorem C42_passthrough_partial (io : FloatIO) (indent : Bytes) (hind : IsWs indent) (hdr : Bool) (X : Pairs)
    (hX : extOk mpdPairs X mpdLocs = true) (v : Val) (ht : Typed tMPD.sch v)
    (hc : Canon io none tMPD.sch v) (hn : NsOk X [] [] none tMPD.sch v)
    (hname : ∀ n ∈ xnames tMPD.sch v, n.space ≠ [] ∧ n.loc ≠ []) :
    ∃ doc w, writeDoc io tMPD.sch v indent hdr = .ok doc ∧ unmarshalDoc io tMPD.sch doc = .ok w ∧
      xnames tMPD.sch w = xnames tMPD.sch v := by
  obtain ⟨doc, w, h1, h2, u, h3, h4, _⟩ := C30_roundtrip_partial io indent hind hdr X hX v ht hc hn
  exact ⟨doc, w, h1, h2, by rw [loose_xnames _ u w h4, back_xnames _ v u h3 hname]⟩

/-- The section in `scteDoc`. -/
theorem scte_names : xnames tMPD.sch scteVal = [⟨b!"http://www.scte.org/schemas/35", b!"Signal"⟩,
    ⟨b!"http://www.scte.org/schemas/35", b!"SpliceInfoSection"⟩, ⟨b!"http://www.scte.org/schemas/35", b!"SpliceInsert"⟩,
    ⟨b!"http://www.scte.org/schemas/35", b!"Program"⟩, ⟨b!"http://www.scte.org/schemas/35", b!"SpliceTime"⟩] := by
  decide +kernel

example : ∃ doc w, writeDoc exIO tMPD.sch scteVal [ch%' '] true = .ok doc ∧ unmarshalDoc exIO tMPD.sch doc = .ok w ∧
    xnames tMPD.sch w = xnames tMPD.sch scteVal :=
  C42_passthrough_partial exIO _ (by simp [IsWs]) true scteExt scteVal_ok.2.2.2 scteVal scteVal_typed
    (canonB_sound _ _ _ _ scteVal_ok.2.1) (nsB_sound _ _ _ _ _ _ scteVal_ok.2.2.1)
    (by rw [scte_names]; decide +kernel)

end Verif.Bind
