import Verif.MpdRoundTrip
import Verif.Chunk

/-!
Programs that check the hypotheses of the round trip (`Canon`, `NsOk`) for a given value; used for the examples.
-/
namespace Verif.Bind

open Verif.Xml

/-- `LeafOk`. -/
def leafB (io : FloatIO) : Kind → Val → Bool
  | .str, .str b => clean b == b
  | .float bits, .float x => clean (io.formatG bits x) == io.formatG bits x && io.formatG bits x != [] &&
      io.parse bits (trimSpace (io.formatG bits x)) == some x
  | .floatInf, .float x => x == infBits || (clean (io.formatF x) == io.formatF x && io.formatF x != (b!"INF") &&
      io.parse 64 (io.formatF x) == some x)
  | .duration, .int i =>
    match Duration.goString i with
    | none => false
    | some s =>
      match Duration.parse io.arch s with
      | .error _ => false
      | .ok _ => true
  | _, _ => true

theorem leafB_sound (io : FloatIO) (k : Kind) (v : Val) (h : leafB io k v = true) : LeafOk io k v := by
  unfold leafB at h
  unfold LeafOk
  split at h
  · simpa using h
  · simp only [Bool.and_eq_true, beq_iff_eq, bne_iff_ne, and_assoc] at h
    exact ⟨h.1, h.2.1, _, h.2.2, Or.inl rfl⟩
  · simp only [Bool.and_eq_true, Bool.or_eq_true, beq_iff_eq, bne_iff_ne, and_assoc] at h
    exact h.imp id fun h => ⟨h.1, h.2.1, _, h.2.2, Or.inl rfl⟩
  · split at h
    · cases h
    · rename_i s hs
      split at h
      · cases h
      · rename_i j hj
        exact ⟨s, j, hs, hj⟩
  · rename_i h1 h2 h3 h4
    split
    · exact absurd rfl (h1 _ rfl)
    · exact absurd rfl (h2 _ _ rfl)
    · exact absurd rfl (h3 _ rfl)
    · exact absurd rfl (h4 _ rfl)
    · trivial

/-- `NameOk`. -/
def nameB (fi xn : Option FInfo) (n : Name) : Bool :=
  (match xn with
    | none => true
    | some x => x.xmlns == [] && (x.loc == [] || x.loc == (splitPrefixed n.loc).2) &&
      (x.loc != [] || (splitPrefixed n.loc).1 == [])) &&
  match fi with
    | none => true
    | some f => (splitPrefixed n.loc).2 == f.loc && (f.xmlns == [] || n.space == f.xmlns)

theorem nameB_sound (fi xn : Option FInfo) (n : Name) (h : nameB fi xn n = true) : NameOk fi xn n := by
  unfold nameB at h
  rw [Bool.and_eq_true] at h
  refine ⟨?_, ?_⟩
  · rintro x rfl
    have h := h.1
    simp only [Bool.and_eq_true, Bool.or_eq_true, beq_iff_eq, bne_iff_ne] at h
    exact ⟨h.1.1, h.1.2, fun h0 => h.2.resolve_left fun h1 => h1 h0⟩
  · rintro f rfl
    have h := h.2
    simpa only [Bool.and_eq_true, Bool.or_eq_true, beq_iff_eq] using h

/-- The attributes in an `any,attr` field have a property. -/
def anyB (p : Nat → List Attr → Bool) (infos : List FInfo) (vs : List Val) : Bool :=
  (List.range infos.length).all fun i =>
    match infos[i]?, vs[i]? with
    | some fi, some (.slice l) => fi.mode != .anyAttr || p i (attrsIn l)
    | _, _ => true

theorem anyB_sound (p : Nat → List Attr → Bool) (infos : List FInfo) (vs : List Val) (h : anyB p infos vs = true) :
    ∀ (i : Nat) (fi : FInfo) (l : List Val), infos[i]? = some fi → fi.mode = .anyAttr → vs[i]? = some (.slice l) →
      p i (attrsIn l) = true := by
  intro i fi l h1 h2 h3
  have hi : i < infos.length := (List.getElem?_eq_some_iff.1 h1).1
  have := List.all_eq_true.1 h i (List.mem_range.2 hi)
  rw [h1, h3] at this
  simpa only [h2, bne_self_eq_false, Bool.false_or] using this

/-- `InnerVal`. -/
def innerB : Val → Bool
  | .str b => chunkB b
  | _ => false

theorem innerB_sound (v : Val) (h : innerB v = true) : InnerVal v := by
  cases v <;> first | cases h; done | exact (chunkB_iff _).1 h

mutual
/-- `Canon`. -/
def canonB (io : FloatIO) (fi : Option FInfo) : Sch → Val → Bool
  | .simple k, v => leafB io k v
  | .ptr _, .ptr none => true
  | .ptr s, .ptr (some v) => !v.isNil && canonB io fi s v
  | .slice s, .slice l => l.all fun v => !v.isNil && canonB io fi s v
  | .attr, .attr a => decide (NCName a.name.loc) && clean a.value == a.value
  | .struct tn xn infos subs, .struct xv vs =>
    nameB fi xn (startName xn xv fi tn) &&
      anyB (fun i l => l.all fun a => attrField infos a.name == some i) infos vs && canonsB io infos subs vs
  | _, _ => false
/-- `Canons`. -/
def canonsB (io : FloatIO) : List FInfo → List Sch → List Val → Bool
  | fi :: fis, s :: ss, v :: vs => !v.isAbsent && (if fi.mode = .innerxml then innerB v else canonB io (some fi) s v) && canonsB io fis ss vs
  | [], [], [] => true
  | _, _, _ => false
end

mutual
theorem canonB_sound (io : FloatIO) (fi : Option FInfo) : ∀ (s : Sch) (v : Val),
    canonB io fi s v = true → Canon io fi s v
  | .simple k, v, h => by
    simp only [canonB, Canon] at h ⊢
    exact leafB_sound io k v h
  | .ptr s, v, h => by
    cases v with
    | ptr o =>
      cases o with
      | none => simp [Canon]
      | some v =>
        simp only [canonB, Canon, Bool.and_eq_true, Bool.not_eq_true'] at h ⊢
        exact ⟨h.1, canonB_sound io fi s v h.2⟩
    | _ => simp [canonB] at h
  | .slice s, v, h => by
    cases v with
    | slice l =>
      simp only [canonB, Canon, List.all_eq_true, Bool.and_eq_true, Bool.not_eq_true'] at h ⊢
      exact fun v hv => ⟨(h v hv).1, canonB_sound io fi s v (h v hv).2⟩
    | _ => simp [canonB] at h
  | .attr, v, h => by
    cases v with
    | attr a =>
      simp only [canonB, Canon, Bool.and_eq_true, decide_eq_true_eq, beq_iff_eq] at h ⊢
      exact h
    | _ => simp [canonB] at h
  | .struct tn xn infos subs, v, h => by
    cases v with
    | struct xv vs =>
      simp only [canonB, Canon, Bool.and_eq_true] at h ⊢
      refine ⟨nameB_sound _ _ _ h.1.1, ?_,
        canonsB_sound io infos subs vs h.2⟩
      intro i f l h1 h2 h3 a ha
      have := List.all_eq_true.1 (anyB_sound _ _ _ h.1.2 i f l h1 h2 h3) a (mem_attrsIn ha)
      simpa using this
    | _ => simp [canonB] at h
  | .name, v, h => by simp [canonB] at h
theorem canonsB_sound (io : FloatIO) : ∀ (infos : List FInfo) (subs : List Sch) (vs : List Val),
    canonsB io infos subs vs = true → Canons io infos subs vs
  | infos, s :: ss, vs, h => by
    cases infos with
    | nil => simp [canonsB] at h
    | cons fi fis =>
      cases vs with
      | nil => simp [canonsB] at h
      | cons v vs =>
        simp only [canonsB, Canons, Bool.and_eq_true, Bool.not_eq_true'] at h ⊢
        refine ⟨h.1.1, ⟨fun hm => ?_, fun hm => ?_⟩, canonsB_sound io fis ss vs h.2⟩
        · have := h.1.2
          rw [if_neg hm] at this
          exact canonB_sound io (some fi) s v this
        · have := h.1.2
          rw [if_pos hm] at this
          exact innerB_sound v this
  | infos, [], vs, h => by
    cases infos with
    | nil =>
      cases vs with
      | nil => simp [Canons]
      | cons v vs => simp [canonsB] at h
    | cons _ _ => simp [canonsB] at h
end

mutual
/-- `NoMix`. -/
def noMixB : Sch → Val → Bool
  | .ptr s, .ptr (some v) => noMixB s v
  | .slice s, .slice l => l.all fun v => noMixB s v
  | .struct _ _ infos subs, .struct _ vs =>
    ((modeField infos .chardata).isNone || !hasElems infos vs) && noMixesB subs vs
  | _, _ => true
/-- `NoMixes`. -/
def noMixesB : List Sch → List Val → Bool
  | s :: ss, v :: vs => noMixB s v && noMixesB ss vs
  | _, _ => true
end

mutual
theorem noMixB_sound : ∀ (s : Sch) (v : Val), noMixB s v = true → NoMix s v
  | .simple k, v, h => by simp [NoMix]
  | .ptr s, v, h => by
    cases v with
    | ptr o =>
      cases o with
      | none => simp [NoMix]
      | some v =>
        simp only [noMixB, NoMix] at h ⊢
        exact noMixB_sound s v h
    | _ => simp [NoMix]
  | .slice s, v, h => by
    cases v with
    | slice l =>
      simp only [noMixB, NoMix, List.all_eq_true] at h ⊢
      exact fun v hv => noMixB_sound s v (h v hv)
    | _ => simp [NoMix]
  | .struct _ _ infos subs, v, h => by
    cases v with
    | struct xv vs =>
      simp only [noMixB, NoMix, Bool.and_eq_true, Bool.or_eq_true, Option.isNone_iff_eq_none, Bool.not_eq_true'] at h ⊢
      exact ⟨fun hn => h.1.resolve_left hn, noMixesB_sound subs vs h.2⟩
    | _ => simp [NoMix]
  | .name, v, h => by simp [NoMix]
  | .attr, v, h => by simp [NoMix]
  | .bad _, v, h => by simp [NoMix]
theorem noMixesB_sound : ∀ (ss : List Sch) (vs : List Val), noMixesB ss vs = true → NoMixes ss vs
  | [], vs, _ => by simp [NoMixes]
  | s :: ss, vs, h => by
    cases vs with
    | nil => simp [NoMixes]
    | cons v vs =>
      simp only [noMixesB, NoMixes, Bool.and_eq_true] at h ⊢
      exact ⟨noMixB_sound s v h.1, noMixesB_sound ss vs h.2⟩
end

/-! ### Namespaces -/

/-- `AnyNs`. -/
def anyNsB (X D : Pairs) (n : Name) (a : Attr) : Bool :=
  (a.name.space == [] && (a.name.loc != xmlnsPrefix || (a.value == n.space && n.space != [] && (splitPrefixed n.loc).1 == []))) ||
  (a.name.space == xmlnsURL && decide ((a.name.loc, a.value) ∈ X)) ||
  (a.name.space != xmlnsURL && X.any fun x => x.2 == a.name.space && (x.1 == genPrefix a.name.space || decide (x ∈ D)))

theorem anyNsB_sound (X D : Pairs) (n : Name) (a : Attr) (h : anyNsB X D n a = true) : AnyNs X D n a := by
  unfold anyNsB at h
  simp only [Bool.or_eq_true, Bool.and_eq_true, beq_iff_eq, bne_iff_ne, decide_eq_true_eq, List.any_eq_true] at h
  rcases h with (h | h) | ⟨h, ⟨p, u⟩, h1, h2, h3⟩
  · exact Or.inl ⟨h.1, fun h0 => by
      have := h.2.resolve_left fun h1 => h1 h0
      exact ⟨this.1.1, this.1.2, this.2⟩⟩
  · exact Or.inr (Or.inl h)
  · dsimp only at h2 h3
    subst h2
    exact Or.inr (Or.inr ⟨h, p, h1, h3⟩)

/-- `AnyNss`. -/
def anyNssB (X D : Pairs) (n : Name) : List Attr → Bool
  | [] => true
  | a :: l => anyNsB X D n a && anyNssB X (declOf a ++ D) n l

theorem anyNssB_sound (X : Pairs) (n : Name) : ∀ (l : List Attr) (D : Pairs), anyNssB X D n l = true → AnyNss X D n l
  | [], _, _ => trivial
  | a :: l, D, h => by
    simp only [anyNssB, Bool.and_eq_true] at h
    exact ⟨anyNsB_sound X D n a h.1, anyNssB_sound X n l _ h.2⟩

/-- `SpaceOk`. -/
def spaceB (u : Bytes) : Bool := u == [] || (u != xmlURL && u != xmlnsURL && clean u == u)

theorem spaceB_sound (u : Bytes) (h : spaceB u = true) : SpaceOk u := by
  intro h0
  unfold spaceB at h
  simp only [Bool.or_eq_true, Bool.and_eq_true, beq_iff_eq, bne_iff_ne] at h
  have := h.resolve_left h0
  exact ⟨this.1.1, this.1.2, this.2⟩

mutual
/-- `NsOk`. -/
def nsB (X D : Pairs) (ns : Bytes) (fi : Option FInfo) : Sch → Val → Bool
  | .ptr s, .ptr (some v) => nsB X D ns fi s v
  | .slice s, .slice l => l.all fun v => nsB X D ns fi s v
  | .struct tn xn infos subs, .struct xv vs =>
    (!tagless xn || ((ns == [] || (startName xn xv fi tn).space == ns) && spaceB (startName xn xv fi tn).space)) &&
    anyB (fun _ l => anyNssB X D (startName xn xv fi tn) l) infos vs &&
    nssB X (anyDecls infos vs ++ D) (startName xn xv fi tn).space infos subs vs
  | _, _ => true
/-- `NsOks`. -/
def nssB (X D : Pairs) (ns : Bytes) : List FInfo → List Sch → List Val → Bool
  | fi :: fis, s :: ss, v :: vs => nsB X D ns (some fi) s v && nssB X D ns fis ss vs
  | _, _, _ => true
end

mutual
theorem nsB_sound (X : Pairs) : ∀ (s : Sch) (D : Pairs) (ns : Bytes) (fi : Option FInfo) (v : Val), nsB X D ns fi s v = true →
    NsOk X D ns fi s v
  | .ptr s, D, ns, fi, v, h => by
    cases v with
    | ptr o =>
      cases o with
      | none => simp [NsOk]
      | some v =>
        simp only [nsB, NsOk] at h ⊢
        exact nsB_sound X s D ns fi v h
    | _ => simp [NsOk]
  | .slice s, D, ns, fi, v, h => by
    cases v with
    | slice l =>
      simp only [nsB, NsOk, List.all_eq_true] at h ⊢
      exact fun v hv => nsB_sound X s D ns fi v (h v hv)
    | _ => simp [NsOk]
  | .struct tn xn infos subs, D, ns, fi, v, h => by
    cases v with
    | struct xv vs =>
      simp only [nsB, NsOk, Bool.and_eq_true, Bool.or_eq_true, Bool.not_eq_true', beq_iff_eq] at h ⊢
      refine ⟨?_, ?_, nssB_sound X subs _ _ infos vs h.2⟩
      · intro ht
        have := h.1.1.resolve_left (by simp [ht])
        exact ⟨this.1, spaceB_sound _ this.2⟩
      · intro i f l h1 h2 h3
        exact anyNssB_sound _ _ _ _ (anyB_sound _ _ _ h.1.2 i f l h1 h2 h3)
    | _ => simp [NsOk]
  | .simple _, _, _, _, _, _ => by simp [NsOk]
  | .name, _, _, _, _, _ => by simp [NsOk]
  | .bad _, _, _, _, _, _ => by simp [NsOk]
  | .attr, _, _, _, _, _ => by simp [NsOk]
theorem nssB_sound (X : Pairs) : ∀ (subs : List Sch) (D : Pairs) (ns : Bytes) (infos : List FInfo) (vs : List Val),
    nssB X D ns infos subs vs = true → NsOks X D ns infos subs vs
  | s :: ss, D, ns, infos, vs, h => by
    cases infos with
    | nil => simp [NsOks]
    | cons fi fis =>
      cases vs with
      | nil => simp [NsOks]
      | cons v vs =>
        simp only [nssB, NsOks, Bool.and_eq_true] at h ⊢
        exact ⟨nsB_sound X s D ns (some fi) v h.1, nssB_sound X ss D ns fis vs h.2⟩
  | [], D, ns, infos, vs, _ => by cases infos <;> simp [NsOks]
end

/-! ### A manifest with an event -/

/-- Conversions for the example, in which all numbers are zero. -/
def exIO : FloatIO where
  formatG _ _ := b!"0"
  formatF _ := b!"0"
  parse _ s := if s = (b!"0") then some 0 else none
  arch := ⟨fun _ => 0⟩
  parse_bits b s x hb h := by
    split at h
    · injection h with h; subst h; rcases hb with rfl | rfl <;> decide
    · cases h

/-- The value read from a document. -/
def valOf (io : FloatIO) (doc : Bytes) : Val :=
  match unmarshalDoc io tMPD.sch doc with
  | .ok v => v
  | .error _ => .absent

theorem valOf_ok (io : FloatIO) (doc : Bytes) (h : (valOf io doc).isAbsent = false) :
    unmarshalDoc io tMPD.sch doc = .ok (valOf io doc) := by
  unfold valOf at h ⊢
  split
  · assumption
  · rename_i e he
    rw [he] at h
    cases h

/-- A manifest with an SCTE-35 section, which has an attribute of another namespace, and a protected adaptation set. -/
@[irreducible] def scteDoc : Bytes := b!"<MPD xmlns=\"urn:mpeg:dash:schema:mpd:2011\" profiles=\"p\" minBufferTime=\"PT4S\"><Period id=\"1\" start=\"PT0S\"><EventStream timescale=\"90000\" schemeIdUri=\"urn:scte:scte35:2013:xml\"><Event presentationTime=\"2346545680\" id=\"4157\"><Signal xmlns=\"http://www.scte.org/schemas/35\"><SpliceInfoSection tier=\"4095\" xmlns:a=\"urn:a\" a:b=\"c\"><SpliceInsert spliceEventId=\"4157\"><Program><SpliceTime ptsTime=\"2346545680\"></SpliceTime></Program></SpliceInsert></SpliceInfoSection></Signal></Event></EventStream><AdaptationSet id=\"1\" mimeType=\"video/mp4\"><ContentProtection cenc:default_KID=\"k\" xmlns:cenc=\"urn:mpeg:cenc:2013\"/><Representation id=\"1\" bandwidth=\"500000\"></Representation></AdaptationSet></Period></MPD>"

/-- The value of that manifest. -/
@[irreducible] def scteVal : Val := valOf exIO scteDoc

theorem scteVal_def : scteVal = valOf exIO scteDoc := by unfold scteVal; rfl

/-- The prefix of the attribute. -/
def scteExt : Pairs := [(b!"a", b!"urn:a")]

theorem scteVal_ok : scteVal.isAbsent = false ∧ canonB exIO none tMPD.sch scteVal = true ∧
    nsB scteExt [] [] none tMPD.sch scteVal = true ∧ extOk mpdPairs scteExt mpdLocs = true := by
  decide +kernel

theorem scteVal_read : unmarshalDoc exIO tMPD.sch scteDoc = .ok scteVal := by
  have h := scteVal_ok.1
  rw [scteVal_def] at h ⊢
  exact valOf_ok exIO _ h

theorem scteVal_typed : Typed tMPD.sch scteVal := unmarshalDoc_typed exIO _ _ _ mpd_ok scteVal_read

/-- This manifest can be written and read back. -/
example : ∃ doc w, writeDoc exIO tMPD.sch scteVal [ch%'\t'] true = .ok doc ∧ unmarshalDoc exIO tMPD.sch doc = .ok w ∧
    Returned [ch%'\t'] tMPD.sch scteVal w :=
  C30_roundtrip_partial exIO _ (by simp [IsWs]) true scteExt scteVal_ok.2.2.2 scteVal scteVal_typed
    (canonB_sound _ _ _ _ scteVal_ok.2.1) (nsB_sound _ _ _ _ _ _ scteVal_ok.2.2.1)

/-- A manifest without mixed content. -/
@[irreducible] def vodDoc : Bytes := b!"<MPD xmlns=\"urn:mpeg:dash:schema:mpd:2011\" profiles=\"p\" type=\"static\" minBufferTime=\"PT4S\"><ProgramInformation><Title>a &amp; b</Title></ProgramInformation><Period><EventStream schemeIdUri=\"urn:x\"><Event id=\"1\">text</Event></EventStream><AdaptationSet mimeType=\"video/mp4\"><ContentProtection cenc:default_KID=\"k\" xmlns:cenc=\"urn:mpeg:cenc:2013\" schemeIdUri=\"urn:y\"/><Representation id=\"1\" bandwidth=\"500000\"><BaseURL>v.mp4</BaseURL></Representation><Representation id=\"2\" bandwidth=\"600000\"/></AdaptationSet></Period></MPD>"

/-- Its value. -/
@[irreducible] def vodVal : Val := valOf exIO vodDoc

theorem vodVal_def : vodVal = valOf exIO vodDoc := by unfold vodVal; rfl

theorem vodVal_ok : vodVal.isAbsent = false ∧ canonB exIO none tMPD.sch vodVal = true ∧ noMixB tMPD.sch vodVal = true ∧
    nsB [] [] [] none tMPD.sch vodVal = true ∧ extOk mpdPairs [] mpdLocs = true := by
  decide +kernel

theorem vodVal_read : unmarshalDoc exIO tMPD.sch vodDoc = .ok vodVal := by
  have h := vodVal_ok.1
  rw [vodVal_def] at h ⊢
  exact valOf_ok exIO _ h

theorem vodVal_typed : Typed tMPD.sch vodVal := unmarshalDoc_typed exIO _ _ _ mpd_ok vodVal_read

/-- It is read as the same, whatever the indentation. -/
example : ∃ w, ∀ indent, IsWs indent → ∀ hdr, ∃ doc, writeDoc exIO tMPD.sch vodVal indent hdr = .ok doc ∧
    unmarshalDoc exIO tMPD.sch doc = .ok w :=
  C38_same_partial exIO [] vodVal_ok.2.2.2.2 vodVal vodVal_typed (canonB_sound _ _ _ _ vodVal_ok.2.1)
    (noMixB_sound _ _ vodVal_ok.2.2.1) (nsB_sound _ _ _ _ _ _ vodVal_ok.2.2.2.1)

/-- A manifest with mixed content is read as the same up to white space. -/
example : ∃ w, (∀ hdr, ∃ doc, writeDoc exIO tMPD.sch scteVal [] hdr = .ok doc ∧ unmarshalDoc exIO tMPD.sch doc = .ok w) ∧
    ∀ indent, IsWs indent → ∀ hdr, ∃ doc w', writeDoc exIO tMPD.sch scteVal indent hdr = .ok doc ∧
      unmarshalDoc exIO tMPD.sch doc = .ok w' ∧ Loose tMPD.sch w w' :=
  C38_indent_partial exIO scteExt scteVal_ok.2.2.2 scteVal scteVal_typed (canonB_sound _ _ _ _ scteVal_ok.2.1)
    (nsB_sound _ _ _ _ _ _ scteVal_ok.2.2.1)

/-- It does have mixed content. -/
example : noMixB tMPD.sch scteVal = false := by decide +kernel

/-- A written manifest, or nothing. -/
def outOf (io : FloatIO) (v : Val) (indent : Bytes) : Bytes :=
  match writeDoc io tMPD.sch v indent false with
  | .ok doc => doc
  | .error _ => []

theorem outOf_ok (io : FloatIO) (v : Val) (indent : Bytes) (h : outOf io v indent ≠ []) :
    writeDoc io tMPD.sch v indent false = .ok (outOf io v indent) := by
  unfold outOf at h ⊢
  split
  · assumption
  · rename_i e he
    rw [he] at h
    exact absurd rfl h

/-- **C38** is false of manifests with SCTE-35 events: an `Event` has character data as well as elements, and the indentation
of the elements becomes part of its text. -/
theorem C38_refuted : ∃ (io : FloatIO) (v : Val) (indent : Bytes) (d1 d2 : Bytes) (w1 w2 : Val), Typed tMPD.sch v ∧
    IsWs indent ∧ writeDoc io tMPD.sch v [] false = .ok d1 ∧ writeDoc io tMPD.sch v indent false = .ok d2 ∧
    unmarshalDoc io tMPD.sch d1 = .ok w1 ∧ unmarshalDoc io tMPD.sch d2 = .ok w2 ∧ w1 ≠ w2 := by
  have h : outOf exIO scteVal [] ≠ [] ∧ outOf exIO scteVal [ch%' '] ≠ [] ∧
      (valOf exIO (outOf exIO scteVal [])).isAbsent = false ∧
      (valOf exIO (outOf exIO scteVal [ch%' '])).isAbsent = false ∧
      outOf exIO (valOf exIO (outOf exIO scteVal [])) [] ≠ outOf exIO (valOf exIO (outOf exIO scteVal [ch%' '])) [] := by
    decide +kernel
  obtain ⟨h1, h2, h3, h4, h5⟩ := h
  refine ⟨exIO, scteVal, [ch%' '], _, _, _, _, scteVal_typed, by simp [IsWs], outOf_ok _ _ _ h1, outOf_ok _ _ _ h2,
    valOf_ok _ _ h3, valOf_ok _ _ h4, fun e => h5 ?_⟩
  rw [e]

end Verif.Bind
