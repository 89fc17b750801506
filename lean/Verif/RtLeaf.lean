import Verif.MpdRoundTrip
import Verif.RtCheck
import Verif.FloatProps
import Verif.DurationProps

/-
The round trip of manifests (C30) and its independence of indentation (C38) with explicit conditions on simple values: the
requirement `LeafOk`, that the text of a value is read back, follows for floating-point numbers from the contract of
`strconv` (Verif/FloatText.lean) and for durations from C06.
-/
namespace Verif.Bind

open Verif Verif.Xml Verif.FloatText

/-- Simple values that are written and read back: strings of XML characters, numbers (the patterns of 32 and 64 bits),
durations that are not negative (for those, reading fails: C82). -/
def LeafFine : Kind → Val → Prop
  | .str, .str b => clean b = b
  | .float b, .float x => (b = 32 ∨ b = 64) ∧ x < 2 ^ b
  | .floatInf, .float x => x < 2 ^ 64
  | .duration, .int i => IsI64 i ∧ 0 ≤ i
  | _, _ => True

theorem leafFine_ok (io : FloatIO) (h : GoFloats io) (k : Kind) (v : Val) (hl : LeafFine k v) : LeafOk io k v := by
  cases k <;> cases v <;> try exact trivial
  · exact hl
  · exact leafOk_float h hl.1 hl.2
  · rename_i i
    have hc := Duration.C06_cycle io.arch i hl.1
    obtain ⟨v, h1⟩ : ∃ v, Duration.cycle io.arch i = some v := by
      by_cases h : i < 9223372036854500000
      · obtain ⟨v, h1, -⟩ := hc.2.1 hl.2 h
        exact ⟨v, h1⟩
      · exact ⟨_, hc.2.2 (by omega)⟩
    unfold Duration.cycle at h1
    cases hs : Duration.goString i with
    | none => simp [hs] at h1
    | some s =>
      cases hp : Duration.parse io.arch s with
      | error e => simp [hs, hp] at h1
      | ok j =>
        exact ⟨s, j, hs, hp⟩
  · exact leafOk_floatInf h hl

mutual
/-- Values that can be written and read back (`Canon`) with the condition `LeafFine` on simple values. -/
def Fine (fi : Option FInfo) : Sch → Val → Prop
  | .simple k, v => LeafFine k v
  | .ptr _, .ptr none => True
  | .ptr s, .ptr (some v) => v.isNil = false ∧ Fine fi s v
  | .slice s, .slice l => ∀ v ∈ l, v.isNil = false ∧ Fine fi s v
  | .attr, .attr a => NCName a.name.loc ∧ clean a.value = a.value
  | .struct tn xn infos subs, .struct xv vs =>
    NameOk fi xn (startName xn xv fi tn) ∧ AnyOk infos vs ∧ Fines infos subs vs
  | _, _ => False
/-- The same for all fields. -/
def Fines : List FInfo → List Sch → List Val → Prop
  | fi :: fis, s :: ss, v :: vs => v.isAbsent = false ∧
    ((fi.mode ≠ .innerxml → Fine (some fi) s v) ∧ (fi.mode = .innerxml → InnerVal v)) ∧ Fines fis ss vs
  | [], [], [] => True
  | _, _, _ => False
end

mutual
theorem fine_canon (io : FloatIO) (h : GoFloats io) (fi : Option FInfo) : ∀ (s : Sch) (v : Val),
    Fine fi s v → Canon io fi s v
  | .simple k, v, hf => by simp only [Fine, Canon] at hf ⊢; exact leafFine_ok io h k v hf
  | .ptr s, v, hf => by
    cases v with
    | ptr o =>
      cases o with
      | none => simp only [Canon]
      | some v =>
        simp only [Fine, Canon] at hf ⊢
        exact ⟨hf.1, fine_canon io h fi s v hf.2⟩
    | _ => simp only [Fine] at hf
  | .slice s, v, hf => by
    cases v with
    | slice l =>
      simp only [Fine, Canon] at hf ⊢
      exact fun v hv => ⟨(hf v hv).1, fine_canon io h fi s v (hf v hv).2⟩
    | _ => simp only [Fine] at hf
  | .attr, v, hf => by
    cases v with
    | attr a => simpa only [Fine, Canon] using hf
    | _ => simp only [Fine] at hf
  | .struct tn xn infos subs, v, hf => by
    cases v with
    | struct xv vs =>
      simp only [Fine, Canon] at hf ⊢
      exact ⟨hf.1, hf.2.1, fines_canons io h infos subs vs hf.2.2⟩
    | _ => simp only [Fine] at hf
theorem fines_canons (io : FloatIO) (h : GoFloats io) : ∀ (infos : List FInfo) (subs : List Sch)
    (vs : List Val), Fines infos subs vs → Canons io infos subs vs
  | infos, [], vs, hf => by
    cases infos <;> cases vs <;> simp only [Fines, Canons] at hf ⊢
  | infos, s :: ss, vs, hf => by
    cases infos with
    | nil => simp only [Fines] at hf
    | cons fi fis =>
      cases vs with
      | nil => simp only [Fines] at hf
      | cons v vs =>
        simp only [Fines, Canons] at hf ⊢
        exact ⟨hf.1, ⟨fun hm => fine_canon io h (some fi) s v (hf.2.1.1 hm), hf.2.1.2⟩, fines_canons io h fis ss vs hf.2.2⟩
end

/-- **C30**, in part, as `C30_roundtrip_partial`, for any implementation of `strconv` that keeps its contract: a manifest of
any numbers (a NaN comes back as a NaN) and of durations that are not negative is written and
read back as the same, durations rounded as in C06. -/
theorem C30_values_partial (io : FloatIO) (hio : GoFloats io) (indent : Bytes) (hind : IsWs indent) (hdr : Bool) (X : Pairs)
    (hX : extOk mpdPairs X mpdLocs = true) (v : Val) (ht : Typed tMPD.sch v)
    (hc : Fine none tMPD.sch v) (hn : NsOk X [] [] none tMPD.sch v) :
    ∃ doc w, writeDoc io tMPD.sch v indent hdr = .ok doc ∧ unmarshalDoc io tMPD.sch doc = .ok w ∧
      Returned indent tMPD.sch v w :=
  C30_roundtrip_partial io indent hind hdr X hX v ht (fine_canon io hio _ _ _ hc) hn

/-- **C38**, in part, as `C38_indent_partial`, with explicit conditions on simple values. -/
theorem C38_values_partial (io : FloatIO) (hio : GoFloats io) (X : Pairs) (hX : extOk mpdPairs X mpdLocs = true) (v : Val)
    (ht : Typed tMPD.sch v) (hc : Fine none tMPD.sch v) (hn : NsOk X [] [] none tMPD.sch v) :
    ∃ w, (∀ hdr, ∃ doc, writeDoc io tMPD.sch v [] hdr = .ok doc ∧ unmarshalDoc io tMPD.sch doc = .ok w) ∧
      ∀ indent, IsWs indent → ∀ hdr, ∃ doc w', writeDoc io tMPD.sch v indent hdr = .ok doc ∧
        unmarshalDoc io tMPD.sch doc = .ok w' ∧ Loose tMPD.sch w w' :=
  C38_indent_partial io X hX v ht (fine_canon io hio _ _ _ hc) hn

/-! ### A manifest with floating-point numbers -/

/-- `LeafFine`. -/
def fineB : Kind → Val → Bool
  | .str, .str b => clean b == b
  | .float b, .float x => (b == 32 || b == 64) && decide (x < 2 ^ b)
  | .floatInf, .float x => decide (x < 2 ^ 64)
  | .duration, .int i => decide (IsI64 i ∧ 0 ≤ i)
  | _, _ => true

theorem fineB_sound (k : Kind) (v : Val) (h : fineB k v = true) : LeafFine k v := by
  cases k <;> cases v <;> first | exact trivial | (simpa [fineB, LeafFine] using h; done)

mutual
/-- `Fines`. -/
def finesB : List FInfo → List Sch → List Val → Bool
  | fi :: fis, s :: ss, v :: vs => !v.isAbsent && (if fi.mode = .innerxml then innerB v else fineValB (some fi) s v) && finesB fis ss vs
  | [], [], [] => true
  | _, _, _ => false
/-- `Fine`. -/
def fineValB (fi : Option FInfo) : Sch → Val → Bool
  | .simple k, v => fineB k v
  | .ptr _, .ptr none => true
  | .ptr s, .ptr (some v) => !v.isNil && fineValB fi s v
  | .slice s, .slice l => l.all fun v => !v.isNil && fineValB fi s v
  | .attr, .attr a => decide (NCName a.name.loc) && clean a.value == a.value
  | .struct tn xn infos subs, .struct xv vs =>
    nameB fi xn (startName xn xv fi tn) &&
      anyB (fun i l => l.all fun a => attrField infos a.name == some i) infos vs && finesB infos subs vs
  | _, _ => false
end

mutual
theorem fineValB_sound (fi : Option FInfo) : ∀ (s : Sch) (v : Val),
    fineValB fi s v = true → Fine fi s v
  | .simple k, v, h => by
    simp only [fineValB, Fine] at h ⊢
    exact fineB_sound k v h
  | .ptr s, v, h => by
    cases v with
    | ptr o =>
      cases o with
      | none => simp [Fine]
      | some v =>
        simp only [fineValB, Fine, Bool.and_eq_true, Bool.not_eq_true'] at h ⊢
        exact ⟨h.1, fineValB_sound fi s v h.2⟩
    | _ => simp [fineValB] at h
  | .slice s, v, h => by
    cases v with
    | slice l =>
      simp only [fineValB, Fine, List.all_eq_true, Bool.and_eq_true, Bool.not_eq_true'] at h ⊢
      exact fun v hv => ⟨(h v hv).1, fineValB_sound fi s v (h v hv).2⟩
    | _ => simp [fineValB] at h
  | .attr, v, h => by
    cases v with
    | attr a =>
      simp only [fineValB, Fine, Bool.and_eq_true, decide_eq_true_eq, beq_iff_eq] at h ⊢
      exact h
    | _ => simp [fineValB] at h
  | .struct tn xn infos subs, v, h => by
    cases v with
    | struct xv vs =>
      simp only [fineValB, Fine, Bool.and_eq_true] at h ⊢
      refine ⟨nameB_sound _ _ _ h.1.1, ?_,
        finesB_sound infos subs vs h.2⟩
      intro i f l h1 h2 h3 a ha
      have := List.all_eq_true.1 (anyB_sound _ _ _ h.1.2 i f l h1 h2 h3) a (mem_attrsIn ha)
      simpa using this
    | _ => simp [fineValB] at h
  | .name, v, h => by simp [fineValB] at h
theorem finesB_sound : ∀ (infos : List FInfo) (subs : List Sch) (vs : List Val),
    finesB infos subs vs = true → Fines infos subs vs
  | infos, s :: ss, vs, h => by
    cases infos with
    | nil => simp [finesB] at h
    | cons fi fis =>
      cases vs with
      | nil => simp [finesB] at h
      | cons v vs =>
        simp only [finesB, Fines, Bool.and_eq_true, Bool.not_eq_true'] at h ⊢
        refine ⟨h.1.1, ⟨fun hm => ?_, fun hm => ?_⟩, finesB_sound fis ss vs h.2⟩
        · have := h.1.2
          rw [if_neg hm] at this
          exact fineValB_sound (some fi) s v this
        · have := h.1.2
          rw [if_pos hm] at this
          exact innerB_sound v this
  | infos, [], vs, h => by
    cases infos with
    | nil =>
      cases vs with
      | nil => simp [Fines]
      | cons v vs => simp [finesB] at h
    | cons _ _ => simp [finesB] at h
end

/-- Conversions that read two numbers, for the example. -/
def twoIO : FloatIO where
  formatG _ _ := b!"0"
  formatF _ := b!"0"
  parse b s := if b = 32 then none else if s = (b!"1.5") then some 0x3FF8000000000000
    else if s = (b!"0.1") then some 0x3FB999999999999A else if s = (b!"0") then some 0 else none
  arch := ⟨fun _ => 0⟩
  parse_bits b s x hb h := by
    rcases hb with rfl | rfl
    · rw [if_pos rfl] at h; cases h
    · rw [if_neg (by decide)] at h
      split at h
      · injection h with h; subst h; decide
      · split at h
        · injection h with h; subst h; decide
        · split at h
          · injection h with h; subst h; decide
          · cases h

/-- A live manifest with floating-point attributes: `INF`, 1.5 and 0.1. -/
@[irreducible] def liveDoc : Bytes := b!"<MPD xmlns=\"urn:mpeg:dash:schema:mpd:2011\" profiles=\"p\" type=\"dynamic\" minBufferTime=\"PT4S\"><Period id=\"1\" start=\"PT0S\"><AdaptationSet mimeType=\"video/mp4\" maxPlayoutRate=\"1.5\"><SegmentTemplate availabilityTimeOffset=\"INF\" media=\"m\"/><Representation id=\"1\" bandwidth=\"500000\"><BaseURL availabilityTimeOffset=\"0.1\">v.mp4</BaseURL></Representation></AdaptationSet></Period></MPD>"

/-- Its value. -/
@[irreducible] def liveVal : Val := valOf twoIO liveDoc

theorem liveVal_def : liveVal = valOf twoIO liveDoc := by unfold liveVal; rfl

theorem liveVal_ok : liveVal.isAbsent = false ∧ fineValB none tMPD.sch liveVal = true ∧
    nsB [] [] [] none tMPD.sch liveVal = true ∧ extOk mpdPairs [] mpdLocs = true := by
  decide +kernel

theorem liveVal_typed : Typed tMPD.sch liveVal := by
  have h := liveVal_ok.1
  rw [liveVal_def] at h ⊢
  exact unmarshalDoc_typed twoIO _ _ _ mpd_ok (valOf_ok twoIO _ h)

/-- It is written and read back with any conversions that keep the contract of `strconv`. -/
example (io : FloatIO) (hio : GoFloats io) : ∃ doc w, writeDoc io tMPD.sch liveVal [ch%' '] true = .ok doc ∧
    unmarshalDoc io tMPD.sch doc = .ok w ∧ Returned [ch%' '] tMPD.sch liveVal w :=
  C30_values_partial io hio _ (by simp [IsWs]) true [] liveVal_ok.2.2.2 liveVal liveVal_typed
    (fineValB_sound _ _ _ liveVal_ok.2.1) (nsB_sound _ _ _ _ _ _ liveVal_ok.2.2.1)

end Verif.Bind
