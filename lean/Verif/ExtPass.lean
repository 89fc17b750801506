import Verif.SctePass
import Verif.ReadWrite

/-!
C50, C51: the content of the SCTE-35 element `Ext`.  The type `ExtType` (`/repo/mpd/scte35.go` 462-472) has an `innerxml`
field, "so extension content survives an unmarshal/marshal round trip".  The bytes of the content do survive (C50); what they
mean need not (C51), because the prefixes they use may be declared outside.
-/
namespace Verif.Bind

open Verif Verif.Xml Verif.FloatText

/-! ### Specification -/

mutual
/-- The values of the `innerxml` fields, in the order of the fields. -/
def inners : Sch → Val → List Bytes
  | .ptr s, .ptr (some v) => inners s v
  | .slice s, .slice l => l.flatMap fun v => inners s v
  | .struct _ _ infos subs, .struct _ vs => innerss infos subs vs
  | _, _ => []
/-- The same for all fields. -/
def innerss : List FInfo → List Sch → List Val → List Bytes
  | fi :: fis, s :: ss, v :: vs => (if fi.mode = .innerxml then innerOf v else inners s v) ++ innerss fis ss vs
  | _, _, _ => []
/-- The value of an `innerxml` field. -/
def innerOf : Val → List Bytes
  | .str b => [b]
  | _ => []
end

/-- Some element of the tree has the bytes `c` between its tags, and there the tokens `ts` are found. -/
inductive Holds : XTree → Bytes → List Token → Prop where
  | here (n : Name) (as : List Attr) (b : Bytes) (kids : List XTree) (en : Name) (eb ea c : Bytes) :
      Holds (.elem n as b (c ++ eb) kids en eb ea) c ((flats kids).map (·.tok))
  | inside (n : Name) (as : List Attr) (b a : Bytes) (kids : List XTree) (en : Name) (eb ea : Bytes) (k : XTree) (c : Bytes)
      (ts : List Token) : k ∈ kids → Holds k c ts → Holds (.elem n as b a kids en eb ea) c ts

/-- Content that means the same wherever it is. -/
def SelfContained (c : Bytes) : Prop :=
  ∀ os os' us us' o o', specRun os (chunkToks c) = some (us, o) → specRun os' (chunkToks c) = some (us', o') → us = us'

/-! ### Content of elements -/

mutual
theorem chunks_holds : ∀ (t : XTree), t.Chunks → ∀ c ∈ t.contents, ∃ ts, Holds t c ts
  | .elem n as b a kids en eb ea, h, c, hc => by
    simp only [XTree.Chunks, XTree.contents, List.mem_cons] at h hc
    rcases hc with rfl | hc
    · obtain ⟨c, rfl, hc, _⟩ := h.1
      rw [show (c ++ eb).length - eb.length = c.length by simp, List.take_left]
      exact ⟨_, .here ..⟩
    · obtain ⟨k, hk, ts, ht⟩ := chunksL_holds kids h.2 c hc
      exact ⟨ts, .inside _ _ _ _ _ _ _ _ k _ _ hk ht⟩
  | .leaf _ _ _, _, c, hc => by simp [XTree.contents] at hc
theorem chunksL_holds : ∀ (l : List XTree), ChunksL l → ∀ c ∈ contentsL l, ∃ k ∈ l, ∃ ts, Holds k c ts
  | [], _, c, hc => by simp [contentsL] at hc
  | t :: l, h, c, hc => by
    simp only [ChunksL, contentsL, List.mem_append] at h hc
    rcases hc with hc | hc
    · obtain ⟨ts, ht⟩ := chunks_holds t h.1 c hc
      exact ⟨t, List.mem_cons_self, ts, ht⟩
    · obtain ⟨k, hk, ts, ht⟩ := chunksL_holds l h.2 c hc
      exact ⟨k, List.mem_cons_of_mem _ hk, ts, ht⟩
end

theorem chunksL_mem : ∀ (l : List XTree), ChunksL l → ∀ k ∈ l, k.Chunks
  | [], _, k, hk => by simp at hk
  | t :: l, h, k, hk => by
    simp only [ChunksL] at h
    rcases List.mem_cons.1 hk with rfl | hk
    · exact h.1
    · exact chunksL_mem l h.2 k hk

theorem holds_means {t : XTree} {c : Bytes} {ts : List Token} (h : Holds t c ts) :
    t.Chunks → Chunk c ∧ ∃ os, specRun os (chunkToks c) = some (ts, os) := by
  induction h with
  | here n as b kids en eb ea c =>
    intro ht
    simp only [XTree.Chunks] at ht
    obtain ⟨⟨c', hc, h1, h2⟩, _⟩ := ht
    rw [List.append_cancel_right hc]
    exact ⟨h1, h2⟩
  | inside n as b a kids en eb ea k c ts hk _ ih =>
    intro ht
    simp only [XTree.Chunks] at ht
    exact ih (chunksL_mem kids ht.2 k hk)

theorem flats_mem : ∀ (l : List XTree) (k : XTree), k ∈ l → ∀ p ∈ k.flat, p ∈ flats l
  | [], k, hk, _, _ => by simp at hk
  | t :: l, k, hk, p, hp => by
    rw [flats, List.mem_append]
    rcases List.mem_cons.1 hk with rfl | hk
    · exact Or.inl hp
    · exact Or.inr (flats_mem l k hk p hp)

/-- The tokens inside an element are tokens of the document. -/
theorem holds_tokens {t : XTree} {c : Bytes} {ts : List Token} (h : Holds t c ts) :
    ∀ u ∈ ts, u ∈ t.flat.map (·.tok) := by
  induction h with
  | here n as b kids en eb ea c =>
    intro u hu
    simp only [XTree.flat, List.map_cons, List.map_append, List.mem_cons, List.mem_append]
    exact Or.inr (Or.inl hu)
  | inside n as b a kids en eb ea k c ts hk _ ih =>
    intro u hu
    obtain ⟨p, hp, rfl⟩ := List.mem_map.1 (ih u hu)
    refine List.mem_map.2 ⟨p, ?_, rfl⟩
    simp only [XTree.flat, List.mem_cons, List.mem_append]
    exact Or.inr (Or.inl (flats_mem kids k hk p hp))

theorem isDoc_tokens {doc : Bytes} {t : XTree} (h : IsDoc doc t) : ∀ p ∈ t.flat, p ∈ docTokens doc := by
  obtain ⟨_, _, pre, post, _, hd⟩ := h
  intro p hp
  rw [hd]
  simp [hp]

/-! ### The values of `innerxml` fields that are read -/

mutual
theorem came_inners (P : Cont) : ∀ (s : Sch) (fi : Option FInfo) (v : Val), Came P fi s v → ∀ b ∈ inners s v, P.ok b
  | .simple k, fi, v, h, b, hb => by simp [inners] at hb
  | .ptr s, fi, v, h, b, hb => by
    cases v with
    | ptr o =>
      cases o with
      | none => simp [inners] at hb
      | some v => simp only [Came, inners] at h hb; exact came_inners P s fi v h.2 b hb
    | _ => simp [inners] at hb
  | .slice s, fi, v, h, b, hb => by
    cases v with
    | slice l =>
      simp only [Came, inners, List.mem_flatMap] at h hb
      obtain ⟨v, hv, hb⟩ := hb
      exact came_inners P s fi v (h v hv).2 b hb
    | _ => simp [inners] at hb
  | .struct tn xn F S, fi, v, h, b, hb => by
    cases v with
    | struct xv vs =>
      simp only [Came, inners] at h hb
      exact cames_innerss P S F vs h.2.2 b hb
    | _ => simp [inners] at hb
  | .name, fi, v, h, b, hb => by simp [inners] at hb
  | .attr, fi, v, h, b, hb => by simp [inners] at hb
  | .bad _, fi, v, h, b, hb => by simp [inners] at hb
theorem cames_innerss (P : Cont) : ∀ (S : List Sch) (F : List FInfo) (vs : List Val), Cames P F S vs → ∀ b ∈ innerss F S vs, P.ok b
  | [], F, vs, _, b, hb => by cases F <;> simp [innerss] at hb
  | s :: S, F, vs, h, b, hb => by
    cases F with
    | nil => simp [innerss] at hb
    | cons f F =>
      cases vs with
      | nil => simp [innerss] at hb
      | cons v vs =>
        simp only [Cames, innerss, List.mem_append] at h hb
        rcases hb with hb | hb
        · split at hb
          · rename_i hm
            have := h.1.2 hm
            cases v <;> simp [innerOf] at hb
            subst hb
            exact this _ rfl
          · rename_i hm
            exact came_inners P s (some f) v (h.1.1 hm) b hb
        · exact cames_innerss P S F vs h.2 b hb
end

/-- **C50**, reading: everything in an `innerxml` field of a manifest that is read is well-formed content, and is what
is between the tags of an element of the document, byte by byte (or is empty, for a field that was not set). -/
theorem C50_read (io : FloatIO) (doc : Bytes) (v : Val) (h : unmarshalDoc io tMPD.sch doc = .ok v) (t : XTree)
    (ht : IsDoc doc t) : ∀ b ∈ inners tMPD.sch v, Chunk b ∧ (b = [] ∨ ∃ ts, Holds t b ts) := by
  have hch := isDoc_chunks doc t ht
  exact came_inners ⟨fun b => Chunk b ∧ (b = [] ∨ ∃ ts, Holds t b ts), chunk_nil, Or.inl rfl⟩ _ _ _
    (isDoc_came io mpdLocs _ doc t v mpd_ok mpd_rt mpd_zrt (by decide +kernel) ht
      (fun c hc => ⟨chunks_contents t hch c hc, Or.inr (chunks_holds t hch c hc)⟩) h)

/-- **C50**, for one element: the field with `innerxml` is set to what is between the tags, whatever that is and whatever
the field had before. -/
theorem C50_captured (io : FloatIO) (top : Bool) (d : Nat) (tn : Bytes) (xn : Option FInfo) (F : List FInfo) (S : List Sch)
    (i : Nat) (hi : modeField F .innerxml = some i) (hs : S[i]? = some (.simple .str)) (v w : Val) (n : Name) (as : List Attr)
    (b c : Bytes) (kids : List XTree) (en : Name) (eb ea : Bytes)
    (h : readT io top d (.struct tn xn F S) v (.elem n as b (c ++ eb) kids en eb ea) = .ok w) :
    ∃ xv vs, w = .struct xv vs ∧ vs[i]? = some (.str c) := by
  have body : ∀ d, readBody io n as (dataOf kids) c
      (fun d infos subs vs => readKids io d infos subs vs kids) d (.struct tn xn F S) v = .ok w →
      ∃ xv vs, w = .struct xv vs ∧ vs[i]? = some (.str c) := by
    intro d h
    unfold readBody at h
    cases v with
    | struct xv vs =>
      dsimp only at h
      split at h
      · cases h
      · split at h
        · cases h
        · split at h
          · cases h
          · split at h
            · cases h
            · rename_i vs3 hf
              injection h with h
              refine ⟨_, vs3, h.symm, ?_⟩
              unfold finishStruct at hf
              dsimp only at hf
              split at hf
              · cases hf
              · rw [hi] at hf
                dsimp only at hf
                unfold updField at hf
                rw [hs] at hf
                split at hf
                · rename_i s v0 e1 e2
                  injection e1 with e1; subst e1
                  dsimp only at hf
                  injection hf with hf
                  subst hf
                  rw [List.getElem?_set_self (lt_of_get e2)]
                · cases hf
    | _ => simp at h
  simp only [readT] at h
  rw [show (c ++ eb).length - eb.length = c.length by simp, List.take_left] at h
  cases top with
  | false => exact body d (by cases v <;> exact h)
  | true =>
    by_cases hd : maxDepth ≤ d
    · cases v <;> simp [place, hd] at h
    · exact body d (by cases v <;> simpa [place, hd] using h)

/-- The type of `Ext` has such a field (`/repo/mpd/scte35.go` 468-472). -/
example : ∃ tn xn F S, tExtType.sch = .struct tn xn F S ∧ modeField F .innerxml = some 1 ∧ S[1]? = some (.simple .str) :=
  ⟨_, _, _, _, rfl, by decide +kernel, by krfl⟩

/-! ### Writing and reading back -/

theorem inners_attr : ∀ (l : List Val), (l.flatMap fun v => inners .attr v) = []
  | [] => rfl
  | v :: l => by
    rw [List.flatMap_cons, inners_attr l]
    cases v <;> simp [inners]

mutual
theorem back_inners (L : List Bytes) : ∀ (s : Sch) (v w : Val), s.rt L = true → Back s v w → inners s w = inners s v
  | .simple k, v, w, _, _ => by simp [inners]
  | .ptr s, v, w, hr, h => by
    cases v with
    | ptr o =>
      cases w with
      | ptr q =>
        cases o <;> cases q <;> simp only [Back] at h
        · rfl
        · simp only [inners, Sch.rt] at hr ⊢
          exact back_inners L s _ _ hr h
      | _ => cases o <;> simp [Back] at h
    | _ => simp [Back] at h
  | .slice s, v, w, hr, h => by
    cases v with
    | slice l =>
      cases w with
      | slice m =>
        simp only [Back] at h
        simp only [inners, Sch.rt] at hr ⊢
        split at h
        · rename_i hs
          cases s <;> simp [Sch.isAttr] at hs
          rw [inners_attr, inners_attr]
        · induction h with
          | nil => rfl
          | cons h1 _ ih => rw [List.flatMap_cons, List.flatMap_cons, back_inners L s _ _ hr h1, ih]
      | _ => simp [Back] at h
    | _ => simp [Back] at h
  | .struct tn xn F S, v, w, hr, h => by
    cases v with
    | struct xv vs =>
      cases w with
      | struct xw ws =>
        simp only [Back] at h
        simp only [inners, Sch.rt, Bool.and_eq_true] at hr ⊢
        have hst := StructRt.of hr.1.1
        exact backs_innerss L S F vs ws hst.len hst.rt hr.2 h.2
      | _ => simp [Back] at h
    | _ => simp [Back] at h
  | .name, v, w, _, _ => by simp [inners]
  | .attr, v, w, _, _ => by simp [inners]
  | .bad _, v, w, _, _ => by simp [inners]
theorem backs_innerss (L : List Bytes) : ∀ (S : List Sch) (F : List FInfo) (vs ws : List Val), F.length = S.length →
    (∀ (i : Nat) (f : FInfo) (s : Sch), F[i]? = some f → S[i]? = some s → fieldRt f s = true) → rts L S = true → Backs S vs ws →
    innerss F S ws = innerss F S vs
  | [], F, vs, ws, _, _, _, _ => by cases F <;> simp [innerss]
  | s :: S, F, vs, ws, hl, hf, hr, h => by
    cases F with
    | nil => simp [innerss]
    | cons f F =>
      cases vs with
      | nil => simp [Backs] at h
      | cons v vs =>
        cases ws with
        | nil => simp [Backs] at h
        | cons w ws =>
          simp only [Backs] at h
          simp only [rts, Bool.and_eq_true] at hr
          simp only [innerss]
          rw [backs_innerss L S F vs ws (by simpa using hl)
            (fun i f' s' h1 h2 => hf (i + 1) f' s' (by simpa using h1) (by simpa using h2)) hr.2 h.2]
          congr 1
          split
          · rename_i hm
            have := fieldRt_inner (hf 0 f s rfl rfl) hm
            subst this
            simp only [Back, SameLeaf] at h
            rw [h.1]
          · exact back_inners L s v w hr.1 h.1
end

mutual
theorem loose_inners : ∀ (s : Sch) (v w : Val), Loose s v w → inners s w = inners s v
  | .simple k, v, w, _ => by simp [inners]
  | .ptr s, v, w, h => by
    cases v with
    | ptr o =>
      cases w with
      | ptr q =>
        cases o <;> cases q <;> simp only [Loose] at h
        · rfl
        · rw [h]
        · rw [h]
        · simp only [inners]
          exact loose_inners s _ _ h
      | _ => cases o <;> simp only [Loose] at h <;> rw [h]
    | _ => simp only [Loose] at h; rw [h]
  | .slice s, v, w, h => by
    cases v with
    | slice l =>
      cases w with
      | slice m =>
        simp only [Loose] at h
        simp only [inners]
        induction h with
        | nil => rfl
        | cons h1 _ ih => rw [List.flatMap_cons, List.flatMap_cons, loose_inners s _ _ h1, ih]
      | _ => simp only [Loose] at h; rw [h]
    | _ => simp only [Loose] at h; rw [h]
  | .struct tn xn F S, v, w, h => by
    cases v with
    | struct xv vs =>
      cases w with
      | struct xw ws =>
        simp only [Loose] at h
        simp only [inners]
        exact looses_innerss _ S F vs ws h.2
      | _ => simp only [Loose] at h; rw [h]
    | _ => simp only [Loose] at h; rw [h]
  | .name, v, w, _ => by simp [inners]
  | .attr, v, w, _ => by simp [inners]
  | .bad _, v, w, _ => by simp [inners]
theorem looses_innerss (mix : Bool) : ∀ (S : List Sch) (F : List FInfo) (vs ws : List Val), Looses mix F S vs ws →
    innerss F S ws = innerss F S vs
  | [], F, vs, ws, _ => by cases F <;> simp [innerss]
  | s :: S, F, vs, ws, h => by
    cases F with
    | nil => simp [Looses] at h
    | cons f F =>
      cases vs with
      | nil => simp [Looses] at h
      | cons v vs =>
        cases ws with
        | nil => simp [Looses] at h
        | cons w ws =>
          simp only [Looses] at h
          simp only [innerss]
          rw [looses_innerss mix S F vs ws h.2]
          congr 1
          rcases h.1 with h | ⟨_, hm, a, p, q, rfl, rfl, _⟩
          · split
            · have : innerOf w = innerOf v := by
                cases s <;> cases v <;> cases w <;> simp_all [Loose, innerOf]
              exact this
            · exact loose_inners s v w h
          · rw [if_neg (by rw [hm]; decide), if_neg (by rw [hm]; decide)]
            cases s <;> simp [inners]
end

theorem returned_inners {indent : Bytes} {v w : Val} (h : Returned indent tMPD.sch v w) :
    inners tMPD.sch w = inners tMPD.sch v := by
  obtain ⟨u, h1, h2, _⟩ := h
  rw [loose_inners _ u w h2, back_inners mpdLocs _ v u mpd_rt h1]

/-- **C50**, in part: the content of `Ext` elements is the same, byte by byte, after writing and reading, whatever the
indentation.  The conditions on the manifest are those of C30. -/
theorem C50_passthrough_partial (io : FloatIO) (indent : Bytes) (hind : IsWs indent) (hdr : Bool) (X : Pairs)
    (hX : extOk mpdPairs X mpdLocs = true) (v : Val) (ht : Typed tMPD.sch v)
    (hc : Canon io none tMPD.sch v) (hn : NsOk X [] [] none tMPD.sch v) :
    ∃ doc w, writeDoc io tMPD.sch v indent hdr = .ok doc ∧ unmarshalDoc io tMPD.sch doc = .ok w ∧
      inners tMPD.sch w = inners tMPD.sch v := by
  obtain ⟨doc, w, h1, h2, h3⟩ := C30_roundtrip_partial io indent hind hdr X hX v ht hc hn
  exact ⟨doc, w, h1, h2, returned_inners h3⟩

/-- **C50**, in part: the content of `Ext` elements in a document is found, byte by byte, in the document written for the
manifest that was read, and is read from there.  The conditions on the manifest are those of C49. -/
theorem C50_rewrite_partial (io : FloatIO) (hio : GoFloats io) (doc : Bytes) (v : Val)
    (h : unmarshalDoc io tMPD.sch doc = .ok v) (hs : Settled tMPD.sch v) (X : Pairs) (hX : extOk mpdPairs X mpdLocs = true)
    (hn : NsOk X [] [] none tMPD.sch v) (indent : Bytes) (hind : IsWs indent) (hdr : Bool) :
    ∃ doc' w t t', writeDoc io tMPD.sch v indent hdr = .ok doc' ∧ unmarshalDoc io tMPD.sch doc' = .ok w ∧ IsDoc doc t ∧
      IsDoc doc' t' ∧ inners tMPD.sch w = inners tMPD.sch v ∧
      ∀ b ∈ inners tMPD.sch v, b = [] ∨ ((∃ ts, Holds t b ts) ∧ ∃ ts, Holds t' b ts) := by
  obtain ⟨doc', w, h1, h2, h3⟩ := C49_rewrite_partial io hio doc v h hs X hX hn indent hind hdr
  obtain ⟨t, ht⟩ := unmarshalDoc_ok io _ doc v h
  obtain ⟨t', ht'⟩ := unmarshalDoc_ok io _ doc' w h2
  refine ⟨doc', w, t, t', h1, h2, ht, ht', returned_inners h3, fun b hb => ?_⟩
  rcases (C50_read io doc v h t ht b hb).2 with e | e
  · exact Or.inl e
  · rcases (C50_read io doc' w h2 t' ht' b (by rw [returned_inners h3]; exact hb)).2 with e' | e'
    · exact Or.inl e'
    · exact Or.inr ⟨e, e'⟩

/-- **C51**, in part: self-contained content of `Ext` elements means the same after writing and reading: the same tokens,
with the same expanded names.  The conditions on the manifest are those of C49. -/
theorem C51_meaning_partial (io : FloatIO) (hio : GoFloats io) (doc : Bytes) (v : Val)
    (h : unmarshalDoc io tMPD.sch doc = .ok v) (hs : Settled tMPD.sch v) (X : Pairs) (hX : extOk mpdPairs X mpdLocs = true)
    (hn : NsOk X [] [] none tMPD.sch v) (indent : Bytes) (hind : IsWs indent) (hdr : Bool) :
    ∃ doc' w t t', writeDoc io tMPD.sch v indent hdr = .ok doc' ∧ unmarshalDoc io tMPD.sch doc' = .ok w ∧ IsDoc doc t ∧
      IsDoc doc' t' ∧ ∀ b ∈ inners tMPD.sch v, b ≠ [] → SelfContained b → ∃ ts, Holds t b ts ∧ Holds t' b ts := by
  obtain ⟨doc', w, t, t', h1, h2, ht, ht', _, h5⟩ := C50_rewrite_partial io hio doc v h hs X hX hn indent hind hdr
  refine ⟨doc', w, t, t', h1, h2, ht, ht', fun b hb hne hsc => ?_⟩
  rcases h5 b hb with e | ⟨⟨ts, e1⟩, ts', e2⟩
  · exact absurd e hne
  · obtain ⟨_, os, g1⟩ := holds_means e1 (isDoc_chunks doc t ht)
    obtain ⟨_, os', g2⟩ := holds_means e2 (isDoc_chunks doc' t' ht')
    have := hsc _ _ _ _ _ _ g1 g2
    subst this
    exact ⟨ts, e1, e2⟩

/-! ### Self-contained content -/

/-- The prefix is reserved or declared by one of the open elements. -/
def declared (os : List Open) (p : Bytes) : Bool := p == (b!"xmlns") || p == (b!"xml") || (bound os p).isSome

/-- Every prefix in the tokens is declared inside, and so is the default namespace where an element has no prefix. -/
def scopedB : List Open → List Token → Bool
  | _, [] => true
  | os, .startElement n as :: l =>
    let os' := ⟨n, as.filterMap Xml.declOf⟩ :: os
    declared os' n.space && as.all (fun a => a.name.space.isEmpty || declared os' a.name.space) && scopedB os' l
  | o :: os, .endElement n :: l => declared (o :: os) n.space && scopedB os l
  | [], .endElement _ :: _ => false
  | os, .charData _ :: l => scopedB os l
  | os, .comment _ :: l => scopedB os l
  | os, .procInst _ _ :: l => scopedB os l
  | os, .directive _ :: l => scopedB os l

theorem bound_append (os os' : List Open) (p : Bytes) (h : (bound os p).isSome) : bound (os ++ os') p = bound os p := by
  induction os with
  | nil => simp [bound] at h
  | cons o os ih =>
    simp only [bound, List.cons_append] at h ⊢
    split
    · rfl
    · rename_i hf
      rw [hf] at h
      exact ih h

theorem declared_append {os : List Open} {p : Bytes} (h : declared os p = true) (os' : List Open) :
    resolvePrefix (os ++ os') p = resolvePrefix os p := by
  unfold declared at h
  unfold resolvePrefix
  split
  · rfl
  · split
    · rfl
    · rename_i h1 h2
      simp only [Bool.or_eq_true, beq_iff_eq, h1, h2, false_or] at h
      rw [bound_append os os' p h]

theorem scoped_same : ∀ (ts : List Token) (q os os' o o' : List Open) (us us' : List Token), scopedB q ts = true →
    specRun (q ++ os) ts = some (us, o) → specRun (q ++ os') ts = some (us', o') → us = us'
  | [], q, os, os', o, o', us, us', _, h1, h2 => by
    simp only [specRun, Option.some.injEq, Prod.mk.injEq] at h1 h2
    rw [← h1.1, ← h2.1]
  | t :: ts, q, os, os', o, o', us, us', hs, h1, h2 => by
    have step : ∀ (q' : List Open) (t1 t2 : Token), scopedB q' ts = true → specToken (q ++ os) t = some (t1, q' ++ os) →
        specToken (q ++ os') t = some (t2, q' ++ os') → t1 = t2 → us = us' := by
      intro q' t1 t2 hq e1 e2 e3
      simp only [specRun, e1, e2] at h1 h2
      split at h1
      · cases h1
      · rename_i us1 o1 r1
        split at h2
        · cases h2
        · rename_i us2 o2 r2
          simp only [Option.some.injEq, Prod.mk.injEq] at h1 h2
          rw [← h1.1, ← h2.1, e3, scoped_same ts q' os os' o1 o2 us1 us2 hq r1 r2]
    cases t with
    | startElement n as =>
      simp only [scopedB, Bool.and_eq_true, List.all_eq_true, Bool.or_eq_true, List.isEmpty_iff] at hs
      have hb : ¬ ∃ a ∈ as, BadDecl a := by
        intro hb
        simp [specRun, specToken, hb] at h1
      refine step (⟨n, as.filterMap Xml.declOf⟩ :: q) _ _ hs.2 (by simp only [specToken, if_neg hb]; rfl)
        (by simp only [specToken, if_neg hb]; rfl) ?_
      have key : ∀ os, resolveElement (⟨n, as.filterMap Xml.declOf⟩ :: (q ++ os)) n = resolveElement (⟨n, as.filterMap Xml.declOf⟩ :: q) n := by
        intro os
        unfold resolveElement
        rw [← List.cons_append, declared_append hs.1.1]
      have key2 : ∀ os, (as.map fun a => (⟨resolveAttr (⟨n, as.filterMap Xml.declOf⟩ :: (q ++ os)) a.name, a.value⟩ : Attr)) =
          as.map fun a => ⟨resolveAttr (⟨n, as.filterMap Xml.declOf⟩ :: q) a.name, a.value⟩ := by
        intro os
        refine List.map_congr_left fun a ha => ?_
        unfold resolveAttr
        split
        · rfl
        · rename_i hne
          rw [← List.cons_append, declared_append ((hs.1.2 a ha).resolve_left hne)]
      rw [key os, key os', key2 os, key2 os']
    | endElement n =>
      cases q with
      | nil => simp [scopedB] at hs
      | cons p q =>
        simp only [scopedB, Bool.and_eq_true] at hs
        have hn : p.name = n := by
          refine Classical.byContradiction fun hn => ?_
          simp [specRun, specToken, hn] at h1
        refine step q _ _ hs.2 (by simp only [specToken, List.cons_append, if_pos hn]; rfl)
          (by simp only [specToken, List.cons_append, if_pos hn]; rfl) ?_
        have key : ∀ os, resolveElement (p :: (q ++ os)) n = resolveElement (p :: q) n := by
          intro os
          unfold resolveElement
          rw [← List.cons_append, declared_append hs.1]
        rw [key os, key os']
    | _ => exact step q _ _ (by simpa [scopedB] using hs) rfl rfl rfl

/-- Content in which every prefix is declared is self-contained. -/
theorem scoped_selfContained {c : Bytes} (h : scopedB [] (chunkToks c) = true) : SelfContained c :=
  fun os os' us us' o o' h1 h2 => scoped_same _ [] os os' o o' us us' h h1 h2

/-! ### Examples -/

/-- A manifest with content in an `Ext` element: attributes in single quotes, a comment, a CDATA section, a character
reference. -/
@[irreducible] def extDoc : Bytes := b!"<MPD xmlns=\"urn:mpeg:dash:schema:mpd:2011\" profiles=\"p\" minBufferTime=\"PT4S\"><Period id=\"1\" start=\"PT0S\"><EventStream timescale=\"90000\" schemeIdUri=\"urn:scte:scte35:2013:xml\"><Event id=\"1\"><Signal xmlns=\"http://www.scte.org/schemas/35\"><SpliceInfoSection tier=\"4095\"><Ext>\n <f:x xmlns:f='urn:f' f:a='1'>&#65;<!-- c --><![CDATA[<&>]]><f:y/></f:x></Ext><SpliceInsert spliceEventId=\"4157\"></SpliceInsert></SpliceInfoSection></Signal></Event></EventStream></Period></MPD>"

/-- The content. -/
def extBytes : Bytes := b!"\n <f:x xmlns:f='urn:f' f:a='1'>&#65;<!-- c --><![CDATA[<&>]]><f:y/></f:x>"

/-- Its value. -/
@[irreducible] def extVal : Val := valOf exIO extDoc

theorem extVal_ok : extVal.isAbsent = false ∧ settledB tMPD.sch extVal = true ∧
    nsB [] [] [] none tMPD.sch extVal = true ∧ inners tMPD.sch extVal = [extBytes] ∧ scopedB [] (chunkToks extBytes) = true := by
  decide +kernel

theorem extVal_any (io : FloatIO) : unmarshalDoc io tMPD.sch extDoc = .ok extVal := by krfl

/-- The content is in the document that is written, whatever the indentation, and means the same. -/
example (io : FloatIO) (hio : GoFloats io) (indent : Bytes) (hind : IsWs indent) : ∃ doc' w t t',
    writeDoc io tMPD.sch extVal indent true = .ok doc' ∧ unmarshalDoc io tMPD.sch doc' = .ok w ∧ IsDoc extDoc t ∧
      IsDoc doc' t' ∧ ∃ ts, Holds t extBytes ts ∧ Holds t' extBytes ts := by
  obtain ⟨doc', w, t, t', h1, h2, h3, h4, h5⟩ := C51_meaning_partial io hio extDoc extVal (extVal_any io)
    (settledB_sound _ _ extVal_ok.2.1) [] vodVal_ok.2.2.2.2 (nsB_sound _ _ _ _ _ _ extVal_ok.2.2.1) indent hind true
  exact ⟨doc', w, t, t', h1, h2, h3, h4, h5 extBytes (by rw [extVal_ok.2.2.2.1]; simp) (by decide)
    (scoped_selfContained extVal_ok.2.2.2.2)⟩

/-! ### Content that uses a prefix from outside -/

/-- The same with a prefix that is declared on the root. -/
@[irreducible] def outDoc : Bytes := b!"<MPD xmlns=\"urn:mpeg:dash:schema:mpd:2011\" xmlns:f=\"urn:f\" profiles=\"p\" minBufferTime=\"PT4S\"><Period id=\"1\" start=\"PT0S\"><EventStream timescale=\"90000\" schemeIdUri=\"urn:scte:scte35:2013:xml\"><Event id=\"1\"><Signal xmlns=\"http://www.scte.org/schemas/35\"><SpliceInfoSection tier=\"4095\"><Ext><f:x/></Ext></SpliceInfoSection></Signal></Event></EventStream></Period></MPD>"

/-- Its value. -/
@[irreducible] def outVal : Val := valOf exIO outDoc

/-- The document written for it. -/
@[irreducible] def outDoc' : Bytes := outOf exIO outVal []

/-- All elements called `x` in the document are in the namespace. -/
def xIn (doc u : Bytes) : Bool := (docTokens doc).all fun p =>
  match p.tok with
  | .startElement n _ => n.loc != (b!"x") || n.space == u
  | _ => true

theorem outVal_ok : outVal.isAbsent = false ∧ outDoc' ≠ [] ∧ inners tMPD.sch outVal = [b!"<f:x/>"] ∧
    xIn outDoc (b!"urn:f") = true ∧ xIn outDoc' (b!"f") = true ∧
    chunkToks (b!"<f:x/>") = [.startElement ⟨b!"f", b!"x"⟩ [], .endElement ⟨b!"f", b!"x"⟩] ∧
    (valOf exIO outDoc').isAbsent = false ∧ inners tMPD.sch (valOf exIO outDoc') = [b!"<f:x/>"] := by
  decide +kernel

theorem xIn_holds {doc u : Bytes} {t : XTree} {ts : List Token} (ht : IsDoc doc t) (hx : xIn doc u = true)
    (h : Holds t (b!"<f:x/>") ts) : ts.head? = some (.startElement ⟨u, b!"x"⟩ []) := by
  obtain ⟨_, os, hs⟩ := holds_means h (isDoc_chunks doc t ht)
  rw [outVal_ok.2.2.2.2.2.1] at hs
  have hb : ¬ ∃ a ∈ ([] : List Attr), BadDecl a := by simp
  simp only [specRun, specToken, if_neg hb] at hs
  generalize hr : resolveElement (⟨⟨b!"f", b!"x"⟩, _⟩ :: os) ⟨b!"f", b!"x"⟩ = r at hs
  have hl : r.loc = b!"x" := by rw [← hr]; rfl
  have hm : ts.head? = some (Token.startElement r []) := by
    split at hs
    · cases hs
    · injection hs with hs; injection hs with hs _
      rw [← hs]; rfl
  obtain ⟨p, hp, hpt⟩ := List.mem_map.1 (holds_tokens h _ (List.mem_of_mem_head? hm))
  have := List.all_eq_true.1 hx p (isDoc_tokens ht p hp)
  rw [hpt] at this
  simp only [hl, bne_self_eq_false, Bool.false_or, beq_iff_eq] at this
  rw [← this, ← hl]
  exact hm

/-- **C51** is not true in general: a prefix declared outside `Ext` is not kept, and an element of the content then has
another namespace. -/
theorem C51_refuted : ∃ io doc v doc' t t' b, unmarshalDoc io tMPD.sch doc = .ok v ∧
    writeDoc io tMPD.sch v [] false = .ok doc' ∧ IsDoc doc t ∧ IsDoc doc' t' ∧ b ∈ inners tMPD.sch v ∧
    (∃ ts, Holds t b ts) ∧ (∃ ts, Holds t' b ts) ∧ ∀ ts, ¬ (Holds t b ts ∧ Holds t' b ts) := by
  obtain ⟨h1, h2, h3, h4, h5, _, h7, h8⟩ := outVal_ok
  have hr : unmarshalDoc exIO tMPD.sch outDoc = .ok outVal := by
    unfold outVal at h1 ⊢
    exact valOf_ok exIO _ h1
  have hw : writeDoc exIO tMPD.sch outVal [] false = .ok outDoc' := by
    unfold outDoc' at h2 ⊢
    exact outOf_ok _ _ _ h2
  have hr' := valOf_ok exIO _ h7
  obtain ⟨t, ht⟩ := unmarshalDoc_ok exIO _ _ _ hr
  obtain ⟨t', ht'⟩ := unmarshalDoc_ok exIO _ _ _ hr'
  have hb : (b!"<f:x/>") ∈ inners tMPD.sch outVal := by rw [h3]; simp
  refine ⟨exIO, outDoc, outVal, outDoc', t, t', b!"<f:x/>", hr, hw, ht, ht', hb, ?_, ?_, ?_⟩
  · exact (C50_read exIO _ _ hr t ht _ hb).2.resolve_left (by decide)
  · exact (C50_read exIO _ _ hr' t' ht' _ (by rw [h8]; simp)).2.resolve_left (by decide)
  · rintro ts ⟨g1, g2⟩
    have e1 := xIn_holds ht h4 g1
    rw [xIn_holds ht' h5 g2] at e1
    revert e1
    decide

end Verif.Bind
