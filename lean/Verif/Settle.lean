import Verif.Carried
import Verif.Readable

/-!
C90: what the library has written is not changed by reading and writing it again.
-/
namespace Verif.Bind

open Verif Verif.Xml Verif.FloatText

/-! ### Specification -/

/-- A simple value whose text is that of the value that is read back: a duration is zero or at least half a
millisecond, not from 0.9995 s to 1 s and not in the last 275808 ns of the range (C06); a floating-point number is not the
negative zero and not a NaN. -/
def SteadyLeaf : Kind → Val → Prop
  | .duration, .int i => i = 0 ∨ (500000 ≤ i ∧ ¬ (999500000 ≤ i ∧ i < 1000000000)) ∧ i < 9223372036854500000
  | .float b, .float x => x ≠ 2 ^ (b - 1) ∧ ¬ NaNBits b x
  | .floatInf, .float x => x ≠ 2 ^ 63 ∧ ¬ NaNBits 64 x
  | _, _ => True

mutual
/-- All simple values in a value are such. -/
def Steady : Sch → Val → Prop
  | .simple k, v => SteadyLeaf k v
  | .ptr s, .ptr (some v) => Steady s v
  | .slice s, .slice l => ∀ v ∈ l, Steady s v
  | .struct _ _ _ subs, .struct _ vs => Steadys subs vs
  | _, _ => True
/-- The same for all fields. -/
def Steadys : List Sch → List Val → Prop
  | s :: ss, v :: vs => Steady s v ∧ Steadys ss vs
  | _, _ => True
end

mutual
/-- No element in the value has a type that captures attributes (`any,attr`). -/
def Bare : Sch → Val → Prop
  | .ptr s, .ptr (some v) => Bare s v
  | .slice s, .slice l => s.isAttr = false ∧ ∀ v ∈ l, Bare s v
  | .struct _ _ infos subs, .struct _ vs => (∀ f ∈ infos, f.mode ≠ .anyAttr) ∧ Bares subs vs
  | _, _ => True
/-- The same for all fields. -/
def Bares : List Sch → List Val → Prop
  | s :: ss, v :: vs => Bare s v ∧ Bares ss vs
  | _, _ => True
end

/-- The names in `XMLName` fields without a tag were set, with a namespace. -/
def Named (l : List Name) : Prop := ∀ n ∈ l, n.space ≠ [] ∧ n.loc ≠ []

/-! ### Proof -/

/-- Durations with the same text, both zero or not. -/
theorem sameDur_steady {i j : Int} (h : SameDur i j)
    (hs : i = 0 ∨ (500000 ≤ i ∧ ¬ (999500000 ≤ i ∧ i < 1000000000)) ∧ i < 9223372036854500000) :
    Duration.goString i = Duration.goString j ∧ (i = 0 ↔ j = 0) := by
  obtain ⟨h1, h2, -, h4⟩ := h
  have hlt : i < 9223372036854500000 := by rcases hs with hs | hs <;> omega
  obtain ⟨h5, h6, h7, h8⟩ := h4 hlt
  have hor : i = 0 ∨ 500000 ≤ i ∧ ¬ (999500000 ≤ i ∧ i < 1000000000) := by rcases hs with hs | hs <;> [exact .inl hs; exact .inr hs.1]
  refine ⟨h5 hor, ?_⟩
  rcases hor with rfl | hor
  · have : j = 0 := by simpa [Duration.writtenNanos] using h8 (by decide)
    simp [this]
  · have hw : 1000000 ≤ Duration.writtenNanos i.toNat := by
      unfold Duration.writtenNanos Duration.msNanos
      split_ifs <;> omega
    constructor
    · intro e; omega
    · intro e; omega

/-- Simple values that are written alike. -/
def Alike (k : Kind) (v w : Val) : Prop :=
  v = w ∨ k = .duration ∧ ∃ i j, v = .int i ∧ w = .int j ∧ Duration.goString i = Duration.goString j ∧ (i = 0 ↔ j = 0)

theorem steady_alike {k : Kind} {v w : Val} (hs : SteadyLeaf k v) (h : SameLeaf k v w) : Alike k v w := by
  cases k with
  | duration =>
    cases v with
    | int i =>
      cases w with
      | int j =>
        simp only [SameLeaf] at h
        simp only [SteadyLeaf] at hs
        exact .inr ⟨rfl, i, j, rfl, rfl, sameDur_steady h hs⟩
      | _ => simp [SameLeaf] at h
    | _ => exact .inl (by simpa only [SameLeaf] using h)
  | float b =>
    cases v with
    | float x =>
      cases w with
      | float y =>
        simp only [SameLeaf, ZeroBits] at h
        simp only [SteadyLeaf] at hs
        left
        rcases h with rfl | ⟨h | h, rfl⟩ | h
        · rfl
        · rw [h]
        · exact absurd h hs.1
        · exact absurd h.1 hs.2
      | _ => simp [SameLeaf] at h
    | _ => exact .inl (by simpa only [SameLeaf] using h)
  | floatInf =>
    cases v with
    | float x =>
      cases w with
      | float y =>
        simp only [SameLeaf, ZeroBits] at h
        simp only [SteadyLeaf] at hs
        left
        rcases h with rfl | ⟨h | h, rfl⟩ | h
        · rfl
        · rw [h]
        · exact absurd h hs.1
        · exact absurd h.1 hs.2
      | _ => simp [SameLeaf] at h
    | _ => exact .inl (by simpa only [SameLeaf] using h)
  | _ => exact .inl (by simpa only [SameLeaf] using h)

theorem alike_eq {k : Kind} {v w : Val} (hk : k ≠ .duration) (h : Alike k v w) : v = w := by
  rcases h with h | h
  · exact h
  · exact absurd h.1 hk

theorem alike_empty {k : Kind} {v w : Val} (h : Alike k v w) : isEmpty (.simple k) v = isEmpty (.simple k) w := by
  rcases h with rfl | ⟨rfl, i, j, rfl, rfl, -, h⟩
  · rfl
  · simp only [isEmpty]
    by_cases h0 : i = 0
    · simp [h0, h.1 h0]
    · have : j ≠ 0 := fun e => h0 (h.2 e)
      simp [h0, this]

theorem alike_attr (io : FloatIO) {k : Kind} {v w : Val} (h : Alike k v w) (n : Name) :
    marshalAttr io (.simple k) n v = marshalAttr io (.simple k) n w := by
  rcases h with rfl | ⟨rfl, i, j, rfl, rfl, h, -⟩
  · rfl
  · simp only [marshalAttr, simpleAttr, h]

theorem alike_absent {k : Kind} {v w : Val} (h : Alike k v w) : v.isAbsent = w.isAbsent := by
  rcases h with rfl | ⟨rfl, i, j, rfl, rfl, h, -⟩ <;> rfl

theorem forall₂_alike_eq {k : Kind} (hk : k ≠ .duration) : ∀ {l m : List Val}, (∀ v ∈ l, SteadyLeaf k v) →
    List.Forall₂ (SameLeaf k) l m → l = m
  | [], _, _, h => by cases h; rfl
  | v :: l, _, hs, h => by
    cases h with
    | cons h1 h2 =>
      rw [alike_eq hk (steady_alike (hs _ (by simp)) h1), forall₂_alike_eq hk (fun v hv => hs v (by simp [hv])) h2]

/-- An attribute. -/
theorem steady_attr (io : FloatIO) {fi : FInfo} {s : Sch} {v w : Val} (hd : durAttr fi s = true) (hs : Steady s v) (hb : Back s v w)
    (n : Name) : marshalAttr io s n v = marshalAttr io s n w ∧ isEmpty s v = isEmpty s w ∧ v.isAbsent = w.isAbsent := by
  cases s with
  | simple k =>
    simp only [Back] at hb
    simp only [Steady] at hs
    have h := steady_alike hs hb
    exact ⟨alike_attr io h n, alike_empty h, alike_absent h⟩
  | ptr s =>
    cases v with
    | ptr o =>
      cases w with
      | ptr p =>
        cases o with
        | none =>
          cases p with
          | none => exact ⟨rfl, rfl, rfl⟩
          | some w => simp [Back] at hb
        | some v =>
          cases p with
          | none => simp [Back] at hb
          | some w =>
            simp only [Back] at hb
            simp only [Steady] at hs
            refine ⟨?_, by simp [isEmpty], rfl⟩
            cases s with
            | simple k =>
              simp only [Back] at hb
              simp only [Steady] at hs
              simp only [marshalAttr]
              have h := steady_alike hs hb
              have := alike_attr io h n
              exact this
            | slice t =>
              cases t with
              | simple k =>
                cases v with
                | slice l =>
                  cases w with
                  | slice m =>
                    simp only [Back, Sch.isAttr, Bool.false_eq_true, if_false] at hb
                    simp only [Steady] at hs
                    have hk : k ≠ .duration := by simpa [durAttr] using hd
                    rw [forall₂_alike_eq hk hs (by simpa only [Back] using hb)]
                  | _ => simp [Back] at hb
                | _ => simp [Back] at hb
              | _ => simp [durAttr] at hd
            | _ => simp [durAttr] at hd
      | _ => cases o <;> simp [Back] at hb
    | _ => simp [Back] at hb
  | _ => simp [durAttr] at hd

theorem steady_attrs (io : FloatIO) : ∀ (F : List FInfo) (S : List Sch) (vs ws : List Val), durOks F S = true →
    (∀ f ∈ F, f.mode ≠ .anyAttr) → Steadys S vs → Backs S vs ws → marshalAttrs io F S vs = marshalAttrs io F S ws
  | [], S, vs, ws, _, _, _, _ => by simp [marshalAttrs]
  | fi :: F, [], vs, ws, _, _, _, hb => by cases vs <;> cases ws <;> simp [marshalAttrs]
  | fi :: F, s :: S, [], ws, _, _, _, hb => by cases ws <;> simp [Backs] at hb
  | fi :: F, s :: S, v :: vs, [], _, _, _, hb => by simp [Backs] at hb
  | fi :: F, s :: S, v :: vs, w :: ws, hd, ha, hs, hb => by
    simp only [durOks, Bool.and_eq_true] at hd
    simp only [Steadys] at hs
    simp only [Backs] at hb
    have ih := steady_attrs io F S vs ws hd.2 (fun f hf => ha f (by simp [hf])) hs.2 hb.2
    simp only [marshalAttrs]
    have hn : fi.mode ≠ .anyAttr := ha fi (by simp)
    by_cases hm : fi.mode = .attr
    · obtain ⟨h1, h2, h3⟩ := steady_attr io (fi := fi) (by simpa [durTag, hm] using hd.1.1) hs.1 hb.1
        ⟨fi.xmlns, joinPrefixed fi.pre fi.loc⟩
      simp only [h1, h2, h3, ih]
    · simp only [hm, hn, or_self, if_false, ih]

theorem isStr_eq {s : Sch} (h : isStr s = true) : s = .simple .str := by
  unfold isStr at h
  split at h
  · rfl
  · simp at h

mutual
/-- What is read back is written alike, if it has no captured names. -/
theorem steady_marshal (io : FloatIO) : ∀ (s : Sch) (v w : Val) (ns : Bytes) (fi : Option FInfo), s.durOk = true → Bare s v →
    Steady s v → Back s v w → Named (xnames s v) →
    marshalV io ns fi s v = marshalV io ns fi s w ∧ isEmpty s v = isEmpty s w ∧ v.isAbsent = w.isAbsent
  | .simple k, v, w, ns, fi, hd, _, hs, hb, _ => by
    simp only [Back] at hb
    simp only [Steady] at hs
    have hk : k ≠ .duration := by simpa [Sch.durOk] using hd
    rw [alike_eq hk (steady_alike hs hb)]
    exact ⟨rfl, rfl, rfl⟩
  | .ptr s, v, w, ns, fi, hd, hc, hs, hb, hx => by
    cases v with
    | ptr o =>
      cases w with
      | ptr p =>
        cases o with
        | none =>
          cases p with
          | none => exact ⟨rfl, rfl, rfl⟩
          | some w => simp [Back] at hb
        | some v =>
          cases p with
          | none => simp [Back] at hb
          | some w =>
            simp only [Back, Steady, Sch.durOk, Bare, xnames] at hb hs hd hc hx
            refine ⟨?_, by simp [isEmpty], rfl⟩
            simp only [marshalV]
            exact (steady_marshal io s v w ns fi hd hc hs hb hx).1
      | _ => cases o <;> simp [Back] at hb
    | _ => simp [Back] at hb
  | .slice s, v, w, ns, fi, hd, hc, hs, hb, hx => by
    cases v with
    | slice l =>
      cases w with
      | slice m =>
        simp only [Steady, Sch.durOk, Bare, xnames] at hs hd hc hx
        have hx' : ∀ v ∈ l, Named (xnames s v) := fun v hv n hn => hx n (List.mem_flatMap.2 ⟨v, hv, hn⟩)
        simp only [Back, hc.1, Bool.false_eq_true, if_false] at hb
        have h : ∀ (l m : List Val), (∀ v ∈ l, Steady s v) → (∀ v ∈ l, Bare s v) → (∀ v ∈ l, Named (xnames s v)) → List.Forall₂ (Back s) l m →
            (l.map fun v => if omits fi s v then .ok [] else marshalV io ns fi s v) =
              (m.map fun v => if omits fi s v then .ok [] else marshalV io ns fi s v) ∧ l.isEmpty = m.isEmpty := by
          intro l m hl hc hx hb
          induction hb with
          | nil => exact ⟨rfl, rfl⟩
          | @cons a b l m h1 h2 ih =>
            obtain ⟨e1, e2, -⟩ := steady_marshal io s a b ns fi hd (hc a (by simp)) (hl a (by simp)) h1 (hx a (by simp))
            have e3 : omits fi s a = omits fi s b := by unfold omits; rw [e2]
            refine ⟨?_, rfl⟩
            simp only [List.map_cons, e1, e3]
            rw [(ih (fun v hv => hl v (by simp [hv])) (fun v hv => hc v (by simp [hv])) (fun v hv => hx v (by simp [hv]))).1]
        obtain ⟨h1, h2⟩ := h l m hs hc.2 hx' hb
        refine ⟨?_, ?_, rfl⟩
        · simp only [marshalV, h1]
        · simpa only [isEmpty] using h2
      | _ => simp [Back] at hb
    | _ => simp [Back] at hb
  | .struct tn xn F S, v, w, ns, fi, hd, hc, hs, hb, hx => by
    cases v with
    | struct xv vs =>
      cases w with
      | struct xw ws =>
        simp only [Back, Steady, Sch.durOk, Bare, xnames] at hb hs hd hc hx
        have hx' : Named (xnamess S vs) := fun n hn => hx n (List.mem_append_right _ hn)
        have hn : startName xn xv fi tn = startName xn xw fi tn := by
          cases ht : tagless xn with
          | true =>
            have hv := hx xv (by simp [ht])
            cases xn with
            | none => simp [tagless] at ht
            | some x =>
              have hl : x.loc = [] := by simpa [tagless] using ht
              rw [(hb.1 x rfl).2 hl hv.2 hv.1]
          | false => rw [startName_tagged (xv := xv) ht, startName_tagged (xv := xw) ht]
        refine ⟨?_, rfl, rfl⟩
        simp only [marshalV]
        rw [hn, steady_attrs io F S vs ws hd hc.1 hs hb.2, steady_fields io F S vs ws _ hd hc.2 hs hb.2 hx']
      | _ => simp [Back] at hb
    | _ => simp [Back] at hb
  | .name, v, w, ns, fi, _, _, _, hb, _ => by simp [Back] at hb
  | .attr, v, w, ns, fi, _, _, _, hb, _ => by simp [Back] at hb
  | .bad e, v, w, ns, fi, _, _, _, hb, _ => by simp [Back] at hb
theorem steady_fields (io : FloatIO) : ∀ (F : List FInfo) (S : List Sch) (vs ws : List Val) (ns : Bytes), durOks F S = true →
    Bares S vs → Steadys S vs → Backs S vs ws → Named (xnamess S vs) → marshalFields io ns F S vs = marshalFields io ns F S ws
  | [], S, vs, ws, ns, _, _, _, _, _ => by simp [marshalFields]
  | fi :: F, [], vs, ws, ns, _, _, _, hb, _ => by cases vs <;> cases ws <;> simp [marshalFields]
  | fi :: F, s :: S, [], ws, ns, _, _, _, hb, _ => by cases ws <;> simp [Backs] at hb
  | fi :: F, s :: S, v :: vs, [], ns, _, _, _, hb, _ => by simp [Backs] at hb
  | fi :: F, s :: S, v :: vs, w :: ws, ns, hd, hc, hs, hb, hx => by
    simp only [durOks, Bool.and_eq_true] at hd
    simp only [Bares] at hc
    simp only [Steadys] at hs
    simp only [Backs] at hb
    simp only [xnamess] at hx
    have hx1 : Named (xnames s v) := fun n hn => hx n (List.mem_append_left _ hn)
    have hx2 : Named (xnamess S vs) := fun n hn => hx n (List.mem_append_right _ hn)
    have ih := steady_fields io F S vs ws ns hd.2 hc.2 hs.2 hb.2 hx2
    have e : fieldItems io fi s v (marshalV io ns (some fi) s v) = fieldItems io fi s w (marshalV io ns (some fi) s w) := by
      by_cases he : fi.mode = .elem
      · obtain ⟨h1, h2, h3⟩ := steady_marshal io s v w ns (some fi) (by simpa [he] using hd.1.2) hc.1 hs.1 hb.1 hx1
        simp only [fieldItems, he, reduceCtorEq, false_or, if_false, omits, h1, h2, h3]
        rfl
      · by_cases hm : fi.mode = .attr ∨ fi.mode = .anyAttr
        · rcases hm with hm | hm <;> simp [fieldItems, hm]
        · have hst : isStr s = true := by
            have := hd.1.1
            unfold durTag at this
            split at this <;> simp_all
          have := isStr_eq hst
          subst this
          have hb1 := hb.1
          simp only [Back, SameLeaf] at hb1
          rw [hb1]
    simp only [marshalFields, e, ih]
end

/-- **C90**, in part: a document that the library writes for a manifest without elements that capture attributes is not changed
by reading and writing it again: the second document has the same bytes.  With indentation, this is for manifests without elements
that have both text and elements. -/
theorem C90_settled_partial (io : FloatIO) (hio : GoFloats io) (X : Pairs) (hX : extOk mpdPairs X mpdLocs = true) (v : Val)
    (ht : Typed tMPD.sch v) (hc : Fine none tMPD.sch v) (hn : NsOk X [] [] none tMPD.sch v) (hst : Steady tMPD.sch v)
    (hba : Bare tMPD.sch v) (hx : Named (xnames tMPD.sch v)) (indent : Bytes) (hind : IsWs indent)
    (hmix : indent = [] ∨ NoMix tMPD.sch v) (hdr : Bool) :
    ∃ doc w, writeDoc io tMPD.sch v indent hdr = .ok doc ∧ unmarshalDoc io tMPD.sch doc = .ok w ∧
      writeDoc io tMPD.sch w indent hdr = .ok doc := by
  obtain ⟨doc, w, h1, h2, u, hb, -, hu⟩ := C30_values_partial io hio indent hind hdr X hX v ht hc hn
  obtain rfl := hu hmix
  refine ⟨doc, w, h1, h2, ?_⟩
  rw [← h1]
  unfold writeDoc marshal
  rw [(steady_marshal io tMPD.sch v w _ _ mpd_durOk hba hst hb hx).1]

/-! ### From document to document -/

/-- Reads a manifest and writes it: `MPDFromBytes` (`/repo/mpd/io.go` 45-53; the parent pointers are not written) and `Write`
(`/repo/mpd/io.go` 59-86). -/
def copyDoc (io : FloatIO) (indent : Bytes) (hdr : Bool) (doc : Bytes) : Option Bytes :=
  match unmarshalDoc io tMPD.sch doc with
  | .error _ => none
  | .ok v =>
    match writeDoc io tMPD.sch v indent hdr with
    | .error _ => none
    | .ok doc' => some doc'

/-- The same, `n` times. -/
def copies (io : FloatIO) (indent : Bytes) (hdr : Bool) : Nat → Bytes → Option Bytes
  | 0, doc => some doc
  | n + 1, doc => (copyDoc io indent hdr doc).bind (copies io indent hdr n)

theorem copies_fixed {io : FloatIO} {indent : Bytes} {hdr : Bool} {doc : Bytes} (h : copyDoc io indent hdr doc = some doc) :
    ∀ n, copies io indent hdr n doc = some doc
  | 0 => rfl
  | n + 1 => by simp only [copies, h, Option.bind_some]; exact copies_fixed h n

/-- **C90**, in part: a manifest that is read from any document and written is, from then on, written with the same bytes each time,
however often it is read and written. -/
theorem C90_forever_partial (io : FloatIO) (hio : GoFloats io) (doc : Bytes) (v : Val)
    (h : unmarshalDoc io tMPD.sch doc = .ok v) (hs : Settled tMPD.sch v) (X : Pairs) (hX : extOk mpdPairs X mpdLocs = true)
    (hn : NsOk X [] [] none tMPD.sch v) (hst : Steady tMPD.sch v) (hba : Bare tMPD.sch v) (hx : Named (xnames tMPD.sch v))
    (indent : Bytes) (hind : IsWs indent) (hmix : indent = [] ∨ NoMix tMPD.sch v) (hdr : Bool) :
    ∃ doc', copyDoc io indent hdr doc = some doc' ∧ ∀ n, copies io indent hdr n doc' = some doc' := by
  have ht := unmarshalDoc_typed io _ _ _ mpd_ok h
  have hf := came_fine (L := mpdLocs) _ _ _ mpd_names mpd_ok mpd_rt ht
      (unmarshalDoc_came io mpdLocs _ _ _ mpd_ok mpd_rt mpd_zrt (by decide +kernel) h) hs
  obtain ⟨doc', w, h1, h2, h3⟩ := C90_settled_partial io hio X hX v ht hf hn hst hba hx indent hind hmix hdr
  refine ⟨doc', ?_, copies_fixed ?_⟩
  · simp only [copyDoc, h, h1]
  · simp only [copyDoc, h2, h3]

/-- **C90**, in part, for documents without SCTE-35 elements and unknown attributes: no condition on names. -/
theorem C90_plain_partial (io : FloatIO) (hio : GoFloats io) (doc : Bytes) (v : Val)
    (h : unmarshalDoc io tMPD.sch doc = .ok v) (hs : Settled tMPD.sch v) (hx : xnames tMPD.sch v = [])
    (hf : foreign tMPD.sch v = []) (hst : Steady tMPD.sch v) (hba : Bare tMPD.sch v)
    (indent : Bytes) (hind : IsWs indent) (hmix : indent = [] ∨ NoMix tMPD.sch v) (hdr : Bool) :
    ∃ doc', copyDoc io indent hdr doc = some doc' ∧ ∀ n, copies io indent hdr n doc' = some doc' :=
  C90_forever_partial io hio doc v h hs [] vodVal_ok.2.2.2.2
    (plain_ns [] mpdLocs _ _ _ _ _ mpd_rt (unmarshalDoc_typed io _ _ _ mpd_ok h) hx hf) hst hba
    (by rw [hx]; intro n hn; cases hn) indent hind hmix hdr

/-! ### What is not settled -/

/-- A manifest with a content identifier. -/
def identDoc : Bytes := b!"<MPD xmlns:scte214='urn:scte:dash:scte214-extensions'><Period><AssetIdentifier schemeIdUri='u'><scte214:ContentIdentifier type='URI' value='v'/></AssetIdentifier></Period></MPD>"

/-- What is written for it after reading it: with `k` more declarations. -/
def identCopy (k : Nat) : Bytes := (b!"<MPD profiles=\"\"><Period><AssetIdentifier schemeIdUri=\"u\"><scte214:ContentIdentifier xmlns:scte214=\"urn:scte:dash:scte214-extensions\" type=\"URI\" value=\"v\"") ++
  (List.replicate k (b!" xmlns:scte214=\"urn:scte:dash:scte214-extensions\"")).flatten ++ (b!"></scte214:ContentIdentifier></AssetIdentifier></Period></MPD>")

/-- **C90** is false of manifests with content identifiers: the declaration of the namespace is captured as an attribute and written
beside the one that the library writes itself, so each round adds one more. -/
theorem C90_ident_refuted (io : FloatIO) : copyDoc io [] false identDoc = some (identCopy 0) ∧
    copyDoc io [] false (identCopy 0) = some (identCopy 1) ∧ copyDoc io [] false (identCopy 1) = some (identCopy 2) ∧
    copyDoc io [] false (identCopy 2) = some (identCopy 3) := by
  refine ⟨?_, ?_, ?_, ?_⟩ <;> krfl

/-- A manifest with an SCTE-35 event. -/
def eventDoc : Bytes := b!"<MPD profiles=\"p\"><Period><EventStream schemeIdUri=\"u\"><Event><Signal xmlns=\"http://www.scte.org/schemas/35\"><Binary>x</Binary></Signal></Event></EventStream></Period></MPD>"

/-- What is written for it with a space as indentation: with `k` times the white space around the signal. -/
def eventCopy (k : Nat) : Bytes := (b!"<MPD profiles=\"p\">\n <Period>\n  <EventStream schemeIdUri=\"u\">\n   <Event presentationTime=\"0\">") ++
  (List.replicate k (b!"\n    \n   ")).flatten ++ (b!"\n    <Signal xmlns=\"http://www.scte.org/schemas/35\">\n     <Binary>x</Binary>\n    </Signal>\n   </Event>\n  </EventStream>\n </Period>\n</MPD>")

/-- **C90** is false of manifests with SCTE-35 events that are written with indentation: each round adds more white space. -/
theorem C90_indent_refuted (io : FloatIO) : copyDoc io [ch%' '] false eventDoc = some (eventCopy 0) ∧
    copyDoc io [ch%' '] false (eventCopy 0) = some (eventCopy 1) ∧
    copyDoc io [ch%' '] false (eventCopy 1) = some (eventCopy 2) ∧
    copyDoc io [ch%' '] false (eventCopy 2) = some (eventCopy 3) := by
  refine ⟨?_, ?_, ?_, ?_⟩ <;> krfl

/-! ### Examples -/

mutual
/-- `Steady`; sound, and false for floating-point numbers other than zero. -/
def steadyB : Sch → Val → Bool
  | .simple .duration, .int i => i == 0 || (decide (500000 ≤ i) && !(decide (999500000 ≤ i) && decide (i < 1000000000)) &&
      decide (i < 9223372036854500000))
  | .simple (.float b), .float x => x == 0 && b != 1
  | .simple .floatInf, .float x => x == 0
  | .ptr s, .ptr (some v) => steadyB s v
  | .slice s, .slice l => l.all (steadyB s)
  | .struct _ _ _ subs, .struct _ vs => steadysB subs vs
  | _, _ => true
/-- The same for all fields. -/
def steadysB : List Sch → List Val → Bool
  | s :: ss, v :: vs => steadyB s v && steadysB ss vs
  | _, _ => true
end

mutual
/-- `Bare`. -/
def bareB : Sch → Val → Bool
  | .ptr s, .ptr (some v) => bareB s v
  | .slice s, .slice l => !s.isAttr && l.all (bareB s)
  | .struct _ _ infos subs, .struct _ vs => infos.all (fun f => f.mode != .anyAttr) && baresB subs vs
  | _, _ => true
/-- The same for all fields. -/
def baresB : List Sch → List Val → Bool
  | s :: ss, v :: vs => bareB s v && baresB ss vs
  | _, _ => true
end

theorem nan_zero (b : Nat) : ¬ NaNBits b 0 := by
  unfold NaNBits absBits
  simp

mutual
theorem steadyB_sound : ∀ (s : Sch) (v : Val), steadyB s v = true → Steady s v
  | .simple k, v, h => by
    simp only [Steady]
    cases k with
    | duration =>
      cases v with
      | int i =>
        simp only [steadyB, Bool.or_eq_true, beq_iff_eq, Bool.and_eq_true, decide_eq_true_eq, Bool.not_eq_true',
          Bool.and_eq_false_iff, decide_eq_false_iff_not] at h
        simp only [SteadyLeaf]
        omega
      | _ => simp [SteadyLeaf]
    | float b =>
      cases v with
      | float x =>
        simp only [steadyB, Bool.and_eq_true, beq_iff_eq, bne_iff_ne] at h
        obtain ⟨rfl, -⟩ := h
        exact ⟨(Nat.two_pow_pos _).ne, nan_zero b⟩
      | _ => simp [SteadyLeaf]
    | floatInf =>
      cases v with
      | float x =>
        simp only [steadyB, beq_iff_eq] at h
        subst h
        exact ⟨by decide, nan_zero 64⟩
      | _ => simp [SteadyLeaf]
    | _ => simp [SteadyLeaf]
  | .ptr s, v, h => by
    cases v with
    | ptr o =>
      cases o with
      | none => simp [Steady]
      | some v => simp only [steadyB, Steady] at h ⊢; exact steadyB_sound s v h
    | _ => simp [Steady]
  | .slice s, v, h => by
    cases v with
    | slice l =>
      simp only [steadyB, Steady, List.all_eq_true] at h ⊢
      exact fun v hv => steadyB_sound s v (h v hv)
    | _ => simp [Steady]
  | .struct tn xn F S, v, h => by
    cases v with
    | struct xv vs => simp only [steadyB, Steady] at h ⊢; exact steadysB_sound S vs h
    | _ => simp [Steady]
  | .attr, v, _ => by simp [Steady]
  | .name, v, _ => by simp [Steady]
  | .bad _, v, _ => by simp [Steady]
theorem steadysB_sound : ∀ (S : List Sch) (vs : List Val), steadysB S vs = true → Steadys S vs
  | [], vs, _ => by simp [Steadys]
  | s :: S, [], _ => by simp [Steadys]
  | s :: S, v :: vs, h => by
    simp only [steadysB, Bool.and_eq_true] at h
    simp only [Steadys]
    exact ⟨steadyB_sound s v h.1, steadysB_sound S vs h.2⟩
end

mutual
theorem bareB_sound : ∀ (s : Sch) (v : Val), bareB s v = true → Bare s v
  | .simple k, v, h => by simp [Bare]
  | .ptr s, v, h => by
    cases v with
    | ptr o =>
      cases o with
      | none => simp [Bare]
      | some v => simp only [bareB, Bare] at h ⊢; exact bareB_sound s v h
    | _ => simp [Bare]
  | .slice s, v, h => by
    cases v with
    | slice l =>
      simp only [bareB, Bare, List.all_eq_true, Bool.and_eq_true, Bool.not_eq_true'] at h ⊢
      exact ⟨h.1, fun v hv => bareB_sound s v (h.2 v hv)⟩
    | _ => simp [Bare]
  | .struct tn xn F S, v, h => by
    cases v with
    | struct xv vs =>
      simp only [bareB, Bare, List.all_eq_true, Bool.and_eq_true, bne_iff_ne] at h ⊢
      exact ⟨h.1, baresB_sound S vs h.2⟩
    | _ => simp [Bare]
  | .attr, v, _ => by simp [Bare]
  | .name, v, _ => by simp [Bare]
  | .bad _, v, _ => by simp [Bare]
theorem baresB_sound : ∀ (S : List Sch) (vs : List Val), baresB S vs = true → Bares S vs
  | [], vs, _ => by simp [Bares]
  | s :: S, [], _ => by simp [Bares]
  | s :: S, v :: vs, h => by
    simp only [baresB, Bool.and_eq_true] at h
    simp only [Bares]
    exact ⟨bareB_sound s v h.1, baresB_sound S vs h.2⟩
end

/-- The value of `eventDoc`. -/
@[irreducible] def copyVal : Val := valOf exIO eventDoc

theorem copyVal_any (io : FloatIO) : unmarshalDoc io tMPD.sch eventDoc = .ok copyVal := by krfl

theorem copyVal_ok : steadyB tMPD.sch copyVal = true ∧ bareB tMPD.sch copyVal = true ∧ settledB tMPD.sch copyVal = true ∧
    nsB [] [] [] none tMPD.sch copyVal = true ∧ xnames tMPD.sch copyVal ≠ [] := by decide +kernel

theorem copyVal_named : Named (xnames tMPD.sch copyVal) := by unfold Named; decide +kernel

/-- Without indentation, a manifest with a signal is settled. -/
example (io : FloatIO) (hio : GoFloats io) (hdr : Bool) :
    ∃ doc', copyDoc io [] hdr eventDoc = some doc' ∧ ∀ n, copies io [] hdr n doc' = some doc' :=
  C90_forever_partial io hio eventDoc copyVal (copyVal_any io) (settledB_sound _ _ copyVal_ok.2.2.1) [] vodVal_ok.2.2.2.2
    (nsB_sound _ _ _ _ _ _ copyVal_ok.2.2.2.1) (steadyB_sound _ _ copyVal_ok.1) (bareB_sound _ _ copyVal_ok.2.1) copyVal_named
    [] (by simp [IsWs]) (.inl rfl) hdr

theorem vodVal_steady : steadyB tMPD.sch vodVal = true ∧ bareB tMPD.sch vodVal = true := by decide +kernel

/-- A manifest without events is settled with any indentation. -/
example (io : FloatIO) (hio : GoFloats io) (indent : Bytes) (hind : IsWs indent) (hdr : Bool) :
    ∃ doc', copyDoc io indent hdr vodDoc = some doc' ∧ ∀ n, copies io indent hdr n doc' = some doc' :=
  C90_plain_partial io hio vodDoc vodVal (vodVal_any io) (settledB_sound _ _ vodVal_settled.1) vodVal_plain.1 vodVal_plain.2
    (steadyB_sound _ _ vodVal_steady.1) (bareB_sound _ _ vodVal_steady.2) indent hind (.inr (noMixB_sound _ _ vodVal_ok.2.2.1)) hdr

end Verif.Bind
