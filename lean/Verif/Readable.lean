import Verif.DurRead
import Verif.ReadWrite

/-!
# When what was written can be read (C82)

A manifest may hold durations that are negative: the field is an `int64` (`/repo/mpd/duration.go` 19), `ParseDuration` may give
one if a value is too large (C05), and a duration in the last 275808 ns of the range comes back as one (C06).  Such a duration
is written with a sign (duration.go 56-144), which `ParseDuration` refuses (duration.go 148-152).  Here: this is the only
reason why a manifest that was written may fail to be read.

The proof writes the manifest with the texts of durations in place of durations (`Verif/DurText.lean`), reads this (C30), and
compares reading durations with reading their texts (`Verif/DurRead.lean`).
-/
namespace Verif.Bind

open Verif Verif.Xml Verif.FloatText

/-- The text of a negative duration is not read. -/
theorem neg_text (a : Duration.Arch) {i : Int} (h : IsI64 i) (hn : i < 0) (j : Int) : Duration.parse a (clean (durStr i)) ≠ .ok j := by
  intro hp
  obtain ⟨H, M, S, sv, -, he⟩ := Duration.goString_form i h (by omega)
  rw [durStr_some h] at he
  injection he with he
  rw [if_pos hn] at he
  have hm : ch%'-' ∈ clean (durStr i) := by
    rw [he, List.singleton_append]
    unfold clean
    rw [Utf8.runes_cons, Utf8.decode_ascii _ _ (by decide)]
    rw [List.flatMap_cons, clean_single (_, _) ch%'-' (by simp) (by show (45 : Nat) < 0x80; decide) (by show IsXmlChar 45; decide)]
    simp
  rcases Duration.C04_alphabet a _ j hp _ hm with h | h
  · revert h; decide
  · revert h; decide

theorem forall₂_mem {α β : Type} {R : α → β → Prop} : ∀ {l : List α} {m : List β}, List.Forall₂ R l m → ∀ a ∈ l, ∃ b, b ∈ m ∧ R a b
  | _, _, .nil, a, h => by simp at h
  | _, _, .cons h1 h2, a, h => by
    rcases List.mem_cons.1 h with rfl | h
    · exact ⟨_, by simp, h1⟩
    · obtain ⟨b, hb, hr⟩ := forall₂_mem h2 a h
      exact ⟨b, by simp [hb], hr⟩

theorem forall₂_mem' {α β : Type} {R : α → β → Prop} : ∀ {l : List α} {m : List β}, List.Forall₂ R l m → ∀ b ∈ m, ∃ a, a ∈ l ∧ R a b
  | _, _, .nil, a, h => by simp at h
  | _, _, .cons h1 h2, a, h => by
    rcases List.mem_cons.1 h with rfl | h
    · exact ⟨_, by simp, h1⟩
    · obtain ⟨b, hb, hr⟩ := forall₂_mem' h2 a h
      exact ⟨b, by simp [hb], hr⟩

theorem durs_absent (s : Sch) (v : Val) (h : v.isAbsent = true) : durs s v = [] := by
  cases v <;> simp [Val.isAbsent] at h
  cases s with
  | simple k => cases k <;> simp [durs]
  | _ => simp [durs]

theorem durs_attrs (l : List Val) : durs (.slice .attr) (.slice l) = [] := by
  simp only [durs, List.flatMap_eq_nil_iff]
  intro v _
  cases v <;> simp

/-- What is not written has no durations. -/
theorem durs_nil : ∀ (s : Sch) (v : Val), Typed s v → (tidy s.txt (txtV s v)).isNil = true → durs s v = []
  | .simple k, v, ht, h => by
    simp only [Typed] at ht
    simp only [Sch.txt, txtV] at h
    rcases (kind_val ht).2 with ⟨rfl, b, rfl⟩ | ⟨_, h'⟩
    · simp [durs]
    · rw [h', (kind_val ht).1] at h; cases h
  | .ptr s, v, ht, h => by
    cases v with
    | ptr o =>
      cases o with
      | none => simp [durs]
      | some v =>
        simp only [Typed] at ht
        simp only [Sch.txt, txtV, tidy] at h
        simp only [durs]
        refine durs_nil s v ht ?_
        cases hn : (tidy s.txt (txtV s v)).isNil
        · rw [hn] at h; simp [Val.isNil] at h
        · rfl
    | _ => simp [Typed] at ht
  | .slice s, v, ht, h => by
    cases v with
    | slice l =>
      simp only [Typed] at ht
      simp only [Sch.txt, txtV, tidy] at h
      rw [filter_nil_iff] at h
      simp only [durs, List.flatMap_eq_nil_iff]
      exact fun v hv => durs_nil s v (ht v hv) (h _ (List.mem_map_of_mem hv))
    | _ => simp [Typed] at ht
  | .name, v, _, _ => by cases v <;> simp [durs]
  | .attr, v, _, _ => by cases v <;> simp [durs]
  | .bad _, v, ht, _ => by simp [Typed] at ht
  | .struct _ _ _ _, v, ht, h => by cases v <;> simp_all [Typed, Sch.txt, txtV, tidy, Val.isNil]

mutual
/-- If a written value is read, its durations are not negative. -/
theorem read_nonneg (io : FloatIO) : ∀ (s : Sch) (v u w w' : Val), s.durOk = true → Typed s v →
    Back s.txt (tidy s.txt (txtV s v)) u → Loose s.txt u w' → TRel io s w w' → ∀ i ∈ durs s v, 0 ≤ i
  | .simple k, v, u, w, w', hd, ht, _, _, _ => by
    simp only [Sch.durOk, bne_iff_ne, ne_eq] at hd
    cases k <;> first | exact absurd rfl hd | (cases v <;> simp [durs])
  | .ptr s, v, u, w, w', hd, ht, hb, hl, hr => by
    cases v with
    | ptr o =>
      cases o with
      | none => simp [durs]
      | some v =>
        simp only [Typed] at ht
        simp only [Sch.durOk] at hd
        simp only [durs]
        cases hn : (tidy s.txt (txtV s v)).isNil with
        | true => rw [durs_nil s v ht hn]; simp
        | false =>
          simp only [Sch.txt, txtV, tidy, hn, Bool.false_eq_true, if_false] at hb hl
          cases u with
          | ptr o =>
            cases o with
            | none => simp [Back] at hb
            | some u =>
              simp only [Back] at hb
              cases w' with
              | ptr o =>
                cases o with
                | none => simp [Loose] at hl
                | some w' =>
                  simp only [Loose] at hl
                  cases w with
                  | ptr o =>
                    cases o with
                    | none => simp [TRel] at hr
                    | some w =>
                      simp only [TRel] at hr
                      exact read_nonneg io s v u w w' hd ht hb hl hr
                  | _ => simp [TRel] at hr
              | _ => simp [Loose] at hl
          | _ => simp [Back] at hb
    | _ => simp [Typed] at ht
  | .slice s, v, u, w, w', hd, ht, hb, hl, hr => by
    cases v with
    | slice l =>
      simp only [Typed] at ht
      simp only [Sch.durOk] at hd
      by_cases hs : s = .attr
      · subst hs; rw [durs_attrs]; simp
      have hs' : s.txt.isAttr = false := by
        cases s <;> first | exact absurd rfl hs | rfl
      simp only [Sch.txt, txtV, tidy] at hb hl
      intro i hi
      simp only [durs, List.mem_flatMap] at hi
      obtain ⟨v, hv, hi⟩ := hi
      cases hn : (tidy s.txt (txtV s v)).isNil with
      | true => rw [durs_nil s v (ht v hv) hn] at hi; simp at hi
      | false =>
        have hm : tidy s.txt (txtV s v) ∈ ((l.map (txtV s)).map (tidy s.txt)).filter fun v => !v.isNil :=
          List.mem_filter.2 ⟨List.mem_map_of_mem (List.mem_map_of_mem hv), by simp [hn]⟩
        cases u with
        | slice lu =>
          simp only [Back, hs', Bool.false_eq_true, if_false] at hb
          obtain ⟨u, hu, hb⟩ := forall₂_mem hb _ hm
          cases w' with
          | slice lw' =>
            simp only [Loose] at hl
            obtain ⟨w', hw', hl⟩ := forall₂_mem hl _ hu
            cases w with
            | slice lw =>
              simp only [TRel] at hr
              obtain ⟨w, hw, hr⟩ := forall₂_mem' hr _ hw'
              exact read_nonneg io s v u w w' hd (ht v hv) hb hl hr i hi
            | _ => simp [TRel] at hr
          | _ => simp [Loose] at hl
        | _ => simp [Back] at hb
    | _ => simp [Typed] at ht
  | .name, v, u, w, w', _, _, _, _, _ => by cases v <;> simp [durs]
  | .attr, v, u, w, w', _, _, _, _, _ => by cases v <;> simp [durs]
  | .bad _, v, u, w, w', _, ht, _, _, _ => by simp [Typed] at ht
  | .struct tn xn F S, v, u, w, w', hd, ht, hb, hl, hr => by
    cases v with
    | struct xv vs =>
      simp only [Typed] at ht
      simp only [Sch.durOk] at hd
      simp only [Sch.txt, txtV, tidy] at hb hl
      cases u with
      | struct xu us =>
        simp only [Back] at hb
        cases w' with
        | struct xw' ws' =>
          simp only [Loose] at hl
          cases w with
          | struct xw ws =>
            simp only [TRel] at hr
            simp only [durs]
            exact reads_nonneg io F S vs us ws ws' _ hd ht.2 hb.2 hl.2 hr.2
          | _ => simp [TRel] at hr
        | _ => simp [Loose] at hl
      | _ => simp [Back] at hb
    | _ => simp [Typed] at ht
theorem reads_nonneg (io : FloatIO) : ∀ (F : List FInfo) (S : List Sch) (vs us ws ws' : List Val) (mix : Bool), durOks F S = true →
    Typeds S vs → Backs (txts F S) (tidies F (txts F S) (txtVs F S vs)) us → Looses mix F (txts F S) us ws' →
    TRels io F S ws ws' → ∀ i ∈ dursL S vs, 0 ≤ i
  | F, [], vs, us, ws, ws', mix, _, _, _, _, _ => by simp [dursL]
  | F, s :: S, [], us, ws, ws', mix, _, _, _, _, _ => by simp [dursL]
  | [], s :: S, v :: vs, us, ws, ws', mix, _, ht, hb, hl, hr => by
    exfalso
    simp only [txts] at hb hl
    cases us with
    | nil => simp [txtVs, tidies, Backs] at hb
    | cons u us => cases ws' <;> simp [Looses] at hl
  | fi :: F, s :: S, v :: vs, us, ws, ws', mix, hd, ht, hb, hl, hr => by
    simp only [txts, txtVs, tidies] at hb hl
    cases us with
    | nil => simp [Backs] at hb
    | cons u us =>
    cases ws' with
    | nil => simp [Looses] at hl
    | cons w' ws' =>
    cases ws with
    | nil => simp [TRels] at hr
    | cons w ws =>
    simp only [Backs, Looses, TRels, durOks, Typeds, Bool.and_eq_true] at hb hl hr hd ht
    have ih := reads_nonneg io F S vs us ws ws' mix hd.2 ht.2 hb.2 hl.2 hr.2
    simp only [dursL, List.mem_append]
    rintro i (hi | hi)
    swap
    · exact ih i hi
    cases hv : v.isAbsent with
    | true => rw [durs_absent s v hv] at hi; simp at hi
    | false =>
    have htv : Typed s v := ht.1.resolve_left (by rw [hv]; simp)
    have hd1 := hd.1.1
    cases hm : fi.mode with
    | elem =>
      have hk : keeps fi = false := by simp [keeps, hm]
      simp only [hm, hk, reduceCtorEq, Bool.false_eq_true, if_false, if_true] at hb hl hr hd
      have hl1 : Loose s.txt u w' := hl.1.resolve_right (by simp)
      have hd2 : s.durOk = true := by simpa using hd.1.2
      cases hw : w'.isAbsent with
      | false => exact read_nonneg io s v u w w' hd2 htv hb.1 hl1 (hr.1.2 (hr.1.1.trans hw)) i hi
      | true =>
        cases w' <;> simp [Val.isAbsent] at hw
        cases s with
        | simple k =>
          simp only [Sch.durOk, bne_iff_ne, ne_eq] at hd2
          cases k <;> first | exact absurd rfl hd2 | (cases v <;> simp [durs] at hi)
        | name => cases v <;> simp [durs] at hi
        | attr => cases v <;> simp [durs] at hi
        | bad e => simp [Typed] at htv
        | ptr s =>
          exfalso
          cases u <;> simp only [Sch.txt, Loose, reduceCtorEq] at hl1
          cases v <;> try simp only [Typed] at htv
          simp [Sch.txt, Back] at hb
        | slice s =>
          exfalso
          cases u <;> simp only [Sch.txt, Loose, reduceCtorEq] at hl1
          simp [Sch.txt, Back] at hb
        | struct tn xn F' S' =>
          exfalso
          cases u <;> simp only [Sch.txt, Loose, reduceCtorEq] at hl1
          simp [Sch.txt, Back] at hb
    | attr =>
      simp only [hm, reduceCtorEq, if_false, if_true] at hb hl hr
      rcases attr_cases s with rfl | rfl | ⟨e2, -⟩
      · have hk : keeps fi = false := by
          simp only [durTag, hm, durAttr] at hd1
          have hd1 : fi.omitE = true ∧ keeps fi = false := by simpa using hd1
          exact hd1.2
        cases v <;> simp only [Typed, KindOk] at htv
        rename_i j
        simp only [durs, List.mem_singleton] at hi
        subst hi
        by_cases h0 : i = 0
        · omega
        simp only [attrTxt, attrTextV, hk, if_neg h0, Bool.false_eq_true, if_false, tidy, Back, SameLeaf] at hb hl
        obtain ⟨rfl, -⟩ := hb
        have hl1 := hl.1.resolve_right (by simp)
        simp only [Loose] at hl1
        subst hl1
        have h1 := hr.1.2 (hr.1.1.trans rfl)
        simp only [TRelA] at h1
        rcases h1 with ⟨-, h1⟩ | ⟨k, x, -, h1, h2⟩
        · injection h1 with h1
          exact absurd ((clean_nil _).1 h1) (durStr_ne htv)
        · injection h1 with h1
          subst h1
          rcases Int.lt_or_le i 0 with hn | hn
          · exact absurd h2 (neg_text _ htv hn _)
          · exact hn
      · have hk : keeps fi = false := by
          simp only [durTag, hm, durAttr] at hd1
          simpa using hd1
        cases v <;> try simp only [Typed] at htv
        rename_i o
        cases o with
        | none => simp [durs] at hi
        | some v =>
        simp only [Typed] at htv
        cases v <;> simp only [KindOk] at htv
        rename_i j
        simp only [durs, List.mem_singleton] at hi
        subst hi
        simp only [attrTxt, attrTextV, hk, Bool.false_eq_true, if_false, tidy, Val.isNil] at hb hl
        cases u with
        | ptr o =>
          cases o with
          | none => simp [Back] at hb
          | some u =>
            simp only [Back, SameLeaf] at hb
            obtain ⟨rfl, -⟩ := hb
            have hl1 := hl.1.resolve_right (by simp)
            cases w' with
            | ptr o =>
              cases o with
              | none => simp [Loose] at hl1
              | some w' =>
                simp only [Loose] at hl1
                subst hl1
                have h1 := hr.1.2 (hr.1.1.trans rfl)
                simp only [TRelA] at h1
                rcases h1 with ⟨-, h1⟩ | ⟨a, b, -, h1, k, x, -, h3, h2⟩
                · simp at h1
                · simp only [Val.ptr.injEq, Option.some.injEq] at h1
                  subst h1
                  injection h3 with h3
                  subst h3
                  rcases Int.lt_or_le i 0 with hn | hn
                  · exact absurd h2 (neg_text _ htv hn _)
                  · exact hn
            | _ => simp [Loose] at hl1
        | _ => simp [Back] at hb
      · exfalso
        simp only [durTag, hm] at hd1
        unfold durAttr at hd1
        split at hd1
        · rename_i k
          cases k <;> first | (simp [attrTxt] at e2; done) | (cases v <;> simp [durs] at hi)
        · rename_i k
          cases v <;> try simp only [Typed] at htv
          rename_i o
          cases o with
          | none => simp [durs] at hi
          | some v => cases k <;> first | (simp [attrTxt] at e2; done) | (cases v <;> simp [durs] at hi)
        · rename_i k
          cases v <;> try simp only [Typed] at htv
          rename_i o
          cases o with
          | none => simp [durs] at hi
          | some v =>
            cases v <;> simp only [Typed] at htv
            simp only [durs, List.mem_flatMap] at hi
            obtain ⟨v, -, hi⟩ := hi
            cases k <;> first | (simp at hd1; done) | (cases v <;> simp [durs] at hi)
        · cases hd1
    | anyAttr =>
      simp only [durTag, hm] at hd1
      unfold isAttrs at hd1
      split at hd1
      · cases v <;> simp only [Typed] at htv
        rw [durs_attrs] at hi
        simp at hi
      · cases hd1
    | chardata =>
      simp only [durTag, hm] at hd1
      unfold isStr at hd1
      split at hd1
      · cases v <;> simp [durs] at hi
      · cases hd1
    | innerxml =>
      simp only [durTag, hm] at hd1
      unfold isStr at hd1
      split at hd1
      · cases v <;> simp [durs] at hi
      · cases hd1
end

theorem mpd_durOk : tMPD.sch.durOk = true := by decide +kernel

theorem txt_ok : tMPD.sch.txt.ok = true := by decide +kernel

theorem txt_rt : tMPD.sch.txt.rt mpdLocs = true := by decide +kernel

theorem txt_ns : tMPD.sch.txt.nsRt mpdPairs [] none false = true := by decide +kernel

theorem txt_hgt : hgt tMPD.sch.txt < maxDepth := by decide +kernel

theorem txt_onePtr : tMPD.sch.txt.onePtr = true := by decide +kernel

theorem writeDoc_txt (io : FloatIO) (s : Sch) (v : Val) (indent : Bytes) (hdr : Bool) (hd : s.durOk = true) (ht : Typed s v) :
    writeDoc io s.txt (txtV s v) indent hdr = writeDoc io s v indent hdr := by
  unfold writeDoc marshal
  rw [marshalV_txt io s v _ _ hd ht]

/-- **C82**, in part: a manifest can always be written, whatever its durations are, and what is written can be read exactly if
none of them is negative; otherwise the error is one of `ParseDuration`.  The conditions are those of C30 (`Rough`, `NsOk`) without
that on durations: names of elements and attributes are those of the tags, and captured ones keep their namespaces. -/
theorem C82_readable_partial (io : FloatIO) (hio : GoFloats io) (indent : Bytes) (hind : IsWs indent) (hdr : Bool) (X : Pairs)
    (hX : extOk mpdPairs X mpdLocs = true) (v : Val) (ht : Typed tMPD.sch v) (hu : Undur none tMPD.sch v)
    (hn : NsOk X [] [] none tMPD.sch v) :
    ∃ doc, writeDoc io tMPD.sch v indent hdr = .ok doc ∧
      ((∃ w, unmarshalDoc io tMPD.sch doc = .ok w) ↔ ∀ i ∈ durs tMPD.sch v, 0 ≤ i) ∧
      ((∃ i ∈ durs tMPD.sch v, i < 0) → unmarshalDoc io tMPD.sch doc = .error .duration) := by
  have ht' := typed_txt _ _ ht
  obtain ⟨u, hb, hw⟩ := sch_back io tMPD.sch.txt mpdPairs mpdLocs (by decide +kernel) txt_ok txt_rt txt_ns
    (fun x hx => by have := List.all_eq_true.1 mpd_pairs x hx; simpa using this) txt_hgt X hX _ (tidy_typed _ _ ht')
    (fine_canon io hio none _ _ (rough_tidy _ _ _ txt_ok ht' (undur_txt _ _ _ mpd_durOk ht hu)))
    (nsOk_tidy X _ _ _ _ _ txt_ok ht' (nsOk_txt X _ _ _ _ _ hn))
  obtain ⟨doc, w', h1, h2, h3, -⟩ := hw indent hind hdr
  rw [writeDoc_tidy io _ _ indent hdr txt_onePtr ht', writeDoc_txt io _ _ _ _ mpd_durOk ht] at h1
  obtain ⟨t, hdoc⟩ := unmarshalDoc_ok io _ doc w' h2
  rw [unmarshalDoc_tree io _ _ t hdoc] at h2
  have hs := readT_sim io t false 0 tMPD.sch _ _ mpd_durOk (zero_rel io _ mpd_durOk) w' h2
  have key : ∀ w, unmarshalDoc io tMPD.sch doc = .ok w → ∀ i ∈ durs tMPD.sch v, 0 ≤ i := by
    intro w hw
    rw [unmarshalDoc_tree io _ _ t hdoc] at hw
    rcases hs with ⟨x, h4, h5⟩ | h4
    · exact read_nonneg io _ v u x w' mpd_durOk ht hb h3 h5
    · have := hw.symm.trans h4
      cases this
  refine ⟨doc, h1, ⟨fun ⟨w, hw⟩ => key w hw, fun h => ?_⟩, fun ⟨i, hi, hneg⟩ => ?_⟩
  · obtain ⟨doc', w, h4, h5, -⟩ := C30_tidy_partial io hio indent hind hdr X hX v ht (undur_rough _ _ _ ht hu h) hn
    rw [h1] at h4
    injection h4 with h4
    subst h4
    exact ⟨w, h5⟩
  · rcases hs with ⟨x, h4, h5⟩ | h4
    · have := key x (by rw [unmarshalDoc_tree io _ _ t hdoc]; exact h4) i hi
      omega
    · rw [unmarshalDoc_tree io _ _ t hdoc]
      exact h4

/-! ### Manifests that were read -/

mutual
/-- Names of captured attributes start like names, and no field is behind a nil embedded pointer. -/
def calm : Sch → Val → Bool
  | .ptr s, .ptr (some v) => calm s v
  | .slice s, .slice l => l.all fun v => calm s v
  | .attr, .attr a => decide (NCName a.name.loc)
  | .struct _ _ _ subs, .struct _ vs => calms subs vs
  | _, _ => true
/-- The same for all fields. -/
def calms : List Sch → List Val → Bool
  | s :: ss, v :: vs => !v.isAbsent && calm s v && calms ss vs
  | _, _ => true
end

/-- Durations are in attributes only. -/
theorem tag_durOk {fi : FInfo} {s : Sch} (hd : durTag fi s = true) (he : (fi.mode != .elem || s.durOk) = true) :
    s = .simple .duration ∨ s = .ptr (.simple .duration) ∨ s.durOk = true := by
  cases hm : fi.mode with
  | elem => rw [hm] at he; exact Or.inr (Or.inr (by simpa using he))
  | attr =>
    simp only [durTag, hm] at hd
    unfold durAttr at hd
    split at hd
    · rename_i k
      cases k <;> simp [Sch.durOk]
    · rename_i k
      cases k <;> simp [Sch.durOk]
    · right; right
      simpa only [Sch.durOk] using hd
    · cases hd
  | anyAttr =>
    simp only [durTag, hm] at hd
    unfold isAttrs at hd
    split at hd
    · simp [Sch.durOk]
    · cases hd
  | chardata =>
    simp only [durTag, hm] at hd
    unfold isStr at hd
    split at hd
    · simp [Sch.durOk]
    · cases hd
  | innerxml =>
    simp only [durTag, hm] at hd
    unfold isStr at hd
    split at hd
    · simp [Sch.durOk]
    · cases hd

/-- Attributes that stay as they are hold no durations. -/
theorem kept_settled {fi : FInfo} {s : Sch} {v : Val} (hm : fi.mode = .attr) (hk : keeps fi = true) (hd : durTag fi s = true) :
    Settled s v := by
  simp only [durTag, hm] at hd
  unfold durAttr at hd
  split at hd
  · simp only [hk, Bool.not_true, Bool.and_false, Bool.or_false, bne_iff_ne, ne_eq] at hd
    simp [Settled, hd]
  · simp only [hk, Bool.not_true, Bool.or_false, bne_iff_ne, ne_eq] at hd
    cases v with
    | ptr o => cases o <;> simp [Settled, hd]
    | _ => simp [Settled]
  · simp only [bne_iff_ne, ne_eq] at hd
    cases v with
    | ptr o =>
      cases o with
      | none => simp [Settled]
      | some v => cases v <;> simp [Settled, hd]
    | _ => simp [Settled]
  · cases hd

mutual
/-- A value that was read meets the conditions of C82, apart from `calm`. -/
theorem came_undur {L : List Bytes} : ∀ (s : Sch) (fi : Option FInfo) (v : Val), namesRt fi s = true → s.ok = true → s.rt L = true →
    s.durOk = true → Typed s v → Came wfCont fi s v → calm s v = true → Undur fi s v
  | .simple k, fi, v, hn, ho, hr, hd, ht, hc, _ => by
    simp only [Sch.durOk, bne_iff_ne, ne_eq] at hd
    have := came_fine (.simple k) fi v hn ho hr ht hc (by simp [Settled, hd])
    simp only [Fine] at this
    simp only [Undur]
    exact Or.inr (Or.inr this)
  | .ptr s, fi, v, hn, ho, hr, hd, ht, hc, hs => by
    cases v with
    | ptr o =>
      cases o with
      | none => simp only [Undur]
      | some v =>
        simp only [Came, calm, Undur, Typed, namesRt, Sch.ok, Sch.rt, Sch.durOk] at hc hs ht hn ho hr hd ⊢
        exact came_undur s fi v hn ho hr hd ht hc.2 hs
    | _ => simp [Typed] at ht
  | .slice s, fi, v, hn, ho, hr, hd, ht, hc, hs => by
    cases v with
    | slice l =>
      simp only [Came, calm, Undur, Typed, namesRt, Sch.ok, Sch.rt, Sch.durOk, List.all_eq_true] at hc hs ht hn ho hr hd ⊢
      exact fun v hv => came_undur s fi v hn ho hr hd (ht v hv) (hc v hv).2 (hs v hv)
    | _ => simp [Typed] at ht
  | .attr, fi, v, _, _, _, _, ht, hc, hs => by
    cases v with
    | attr a =>
      simp only [Came, calm, Undur, decide_eq_true_eq] at hc hs ⊢
      exact ⟨hs, fun _ => hc.2⟩
    | _ => simp [Typed] at ht
  | .struct tn xn F S, fi, v, hn, ho, hr, hd, ht, hc, hs => by
    obtain ⟨xv, vs, rfl, hf⟩ := struct_fields ho ht
    simp only [Came, calm, Undur, namesRt, Sch.ok, Sch.rt, Sch.durOk, Bool.and_eq_true] at hc hs hn ho hr hd ⊢
    have hnb := hn.1
    simp only [Bool.or_eq_true, Bool.not_eq_true', decide_eq_false_iff_not] at hnb
    exact ⟨name_ok (hnb.resolve_right fun h => h hc.1.1) hc.1.2, hc.2.1, cames_undurs S F vs hn.2 ho.2 hr.2 hd
      (StructRt.of hr.1.1).rt hf.len hf.typ hc.2.2 hs⟩
  | .name, _, _, _, _, hr, _, _, _, _ => by simp [Sch.rt] at hr
  | .bad _, _, _, _, _, hr, _, _, _, _ => by simp [Sch.rt] at hr
theorem cames_undurs {L : List Bytes} : ∀ (S : List Sch) (F : List FInfo) (vs : List Val), namesRts F S = true → oks S = true → rts L S = true →
    durOks F S = true → (∀ (i : Nat) (f : FInfo) (s : Sch), F[i]? = some f → S[i]? = some s → fieldRt f s = true) →
    F.length = S.length → Typeds S vs → Cames wfCont F S vs → calms S vs = true → Undurs F S vs
  | [], F, vs, _, _, _, _, _, hl, ht, _, _ => by
    cases F with
    | cons _ _ => simp at hl
    | nil => cases vs with
      | nil => simp [Undurs]
      | cons _ _ => simp [Typeds] at ht
  | s :: S, F, vs, hn, ho, hr, hd, hst, hl, ht, hc, hs => by
    cases F with
    | nil => simp at hl
    | cons f F =>
      cases vs with
      | nil => simp [Typeds] at ht
      | cons v vs =>
        simp only [Cames, calms, Undurs, Typeds, namesRts, oks, rts, durOks, Bool.and_eq_true, Bool.not_eq_true'] at hc hs ht hn ho hr hd ⊢
        have htv := ht.1.resolve_left (by simp [hs.1.1])
        refine ⟨hs.1.1, ⟨fun hk => ?_, fun hk hm => ?_, fun hm => ?_⟩, ?_⟩
        · have hm : f.mode ≠ .innerxml := by
            intro hm
            simp [keeps, hm] at hk
          rcases tag_durOk hd.1.1 hd.1.2 with rfl | rfl | hd'
          · simp [Undur]
          · cases v <;> try simp only [Typed] at htv
            rename_i o
            cases o <;> simp [Undur]
          · exact came_undur s (some f) v hn.1 ho.1 hr.1 hd' htv (hc.1.1 hm) hs.1.2
        · have ha : f.mode = .attr := by
            unfold keeps at hk
            simp only [Bool.or_eq_true, Bool.and_eq_true, beq_iff_eq, hm, false_or] at hk
            exact hk.1
          exact came_fine s (some f) v hn.1 ho.1 hr.1 htv (hc.1.1 hm) (kept_settled ha hk hd.1.1)
        · have hin := hc.1.2 hm
          rw [fieldRt_inner (hst 0 f s rfl rfl) hm] at htv
          cases v <;> simp [Typed, KindOk] at htv
          exact hin _ rfl
        exact cames_undurs S F vs hn.2 ho.2 hr.2 hd.2 (fun i f' s' h1 h2 => hst (i + 1) f' s' (by simpa using h1) (by simpa using h2))
          (by simpa using hl) ht.2 hc.2 hs.2
end

/-- **C82**, in part, for manifests that were read: such a manifest can be written, and what is written can be read exactly if no
duration in it is negative. -/
theorem C82_rewrite_partial (io : FloatIO) (hio : GoFloats io) (doc : Bytes) (v : Val) (h : unmarshalDoc io tMPD.sch doc = .ok v)
    (hs : calm tMPD.sch v = true) (X : Pairs) (hX : extOk mpdPairs X mpdLocs = true) (hn : NsOk X [] [] none tMPD.sch v)
    (indent : Bytes) (hind : IsWs indent) (hdr : Bool) :
    ∃ doc', writeDoc io tMPD.sch v indent hdr = .ok doc' ∧
      ((∃ w, unmarshalDoc io tMPD.sch doc' = .ok w) ↔ ∀ i ∈ durs tMPD.sch v, 0 ≤ i) ∧
      ((∃ i ∈ durs tMPD.sch v, i < 0) → unmarshalDoc io tMPD.sch doc' = .error .duration) := by
  have ht := unmarshalDoc_typed io _ _ _ mpd_ok h
  exact C82_readable_partial io hio indent hind hdr X hX v ht
    (came_undur (L := mpdLocs) _ _ _ mpd_names mpd_ok mpd_rt mpd_durOk ht
      (unmarshalDoc_came io mpdLocs _ _ _ mpd_ok mpd_rt mpd_zrt (by decide +kernel) h) hs) hn

/-! ### Durations at the end of the range -/

mutual
/-- The durations of what comes back. -/
theorem back_durs : ∀ (s : Sch) (v w : Val), Typed s v → Back s v w → List.Forall₂ SameDur (durs s v) (durs s w)
  | .simple k, v, w, ht, hb => by
    simp only [Typed] at ht
    simp only [Back] at hb
    cases k with
    | duration =>
      cases v <;> simp only [KindOk] at ht
      cases w <;> simp [SameLeaf] at hb
      simp only [durs]
      exact .cons hb .nil
    | _ => cases v <;> cases w <;> simp [durs]
  | .ptr s, v, w, ht, hb => by
    cases v with
    | ptr o =>
      cases w with
      | ptr p =>
        cases o <;> cases p <;> simp only [Back] at hb <;> try simp only [Typed] at ht
        · simp [durs]
        · simp only [durs]; exact back_durs s _ _ ht hb
      | _ => simp [Back] at hb
    | _ => simp [Typed] at ht
  | .slice s, v, w, ht, hb => by
    cases v with
    | slice l =>
      cases w with
      | slice m =>
        simp only [Typed] at ht
        by_cases hs : s.isAttr = true
        · cases s <;> simp [Sch.isAttr] at hs
          rw [durs_attrs, durs_attrs]; exact .nil
        simp only [Back, hs, Bool.false_eq_true, if_false] at hb
        simp only [durs]
        induction hb with
        | nil => exact .nil
        | cons h1 _ ih =>
          simp only [List.flatMap_cons]
          exact List.rel_append (back_durs s _ _ (ht _ (by simp)) h1) (ih fun v hv => ht v (by simp [hv]))
      | _ => simp [Back] at hb
    | _ => simp [Typed] at ht
  | .name, v, w, _, _ => by cases v <;> cases w <;> simp [durs]
  | .attr, v, w, _, _ => by cases v <;> cases w <;> simp [durs]
  | .bad _, v, w, ht, _ => by simp [Typed] at ht
  | .struct tn xn F S, v, w, ht, hb => by
    cases v with
    | struct xv vs =>
      cases w with
      | struct xw ws =>
        simp only [Typed, Back] at ht hb
        simp only [durs]
        exact backs_durs S vs ws ht.2 hb.2
      | _ => simp [Back] at hb
    | _ => simp [Typed] at ht
theorem backs_durs : ∀ (S : List Sch) (vs ws : List Val), Typeds S vs → Backs S vs ws → List.Forall₂ SameDur (dursL S vs) (dursL S ws)
  | [], vs, ws, _, hb => by simp [dursL]
  | s :: S, vs, ws, ht, hb => by
    cases vs with
    | nil => simp [Typeds] at ht
    | cons v vs =>
      cases ws with
      | nil => simp [Backs] at hb
      | cons w ws =>
        simp only [Typeds, Backs] at ht hb
        simp only [dursL]
        refine List.rel_append ?_ (backs_durs S vs ws ht.2 hb.2)
        rcases ht.1 with h | h
        · cases v <;> simp [Val.isAbsent] at h
          have hw : ∀ k, Back (.simple k) .absent w → w = .absent := by
            intro k hk
            simp only [Back] at hk
            cases k <;> simp only [SameLeaf] at hk <;> exact hk.symm
          cases s with
          | simple k => rw [hw k hb.1]; cases k <;> simp [durs]
          | name => simp [Back] at hb
          | attr => simp [Back] at hb
          | bad e => simp [Back] at hb
          | _ => cases w <;> simp [Back] at hb
        · exact back_durs s v w h hb.1
end

/-- **C82**, in part, durations at the end of the range: a manifest with a duration in the last 275808 ns of the range is written and
read back, but as a manifest with a negative duration, and what is written for that cannot be read. -/
theorem C82_second_partial (io : FloatIO) (hio : GoFloats io) (hdr : Bool) (X : Pairs) (hX : extOk mpdPairs X mpdLocs = true) (v : Val)
    (ht : Typed tMPD.sch v) (hc : Fine none tMPD.sch v) (hn : NsOk X [] [] none tMPD.sch v)
    (h : ∃ i ∈ durs tMPD.sch v, 9223372036854500000 ≤ i) :
    ∃ doc w, writeDoc io tMPD.sch v [] hdr = .ok doc ∧ unmarshalDoc io tMPD.sch doc = .ok w ∧
      -9223372036854551616 ∈ durs tMPD.sch w ∧
      (calm tMPD.sch w = true → ∀ Y, extOk mpdPairs Y mpdLocs = true → NsOk Y [] [] none tMPD.sch w → ∀ indent, IsWs indent → ∀ hdr',
        ∃ doc', writeDoc io tMPD.sch w indent hdr' = .ok doc' ∧ unmarshalDoc io tMPD.sch doc' = .error .duration) := by
  obtain ⟨doc, w, h1, h2, u, hb, -, hu⟩ := C30_values_partial io hio [] (by simp [IsWs]) hdr X hX v ht hc hn
  obtain rfl := hu (Or.inl rfl)
  obtain ⟨i, hi, hi'⟩ := h
  obtain ⟨j, hj, hs⟩ := forall₂_mem (back_durs _ _ _ ht hb) i hi
  obtain rfl : j = -9223372036854551616 := hs.2.2.1 hi'
  refine ⟨doc, w, h1, h2, hj, fun hcalm Y hY hn' indent hind hdr' => ?_⟩
  obtain ⟨doc', h3, -, h4⟩ := C82_rewrite_partial io hio doc w h2 hcalm Y hY hn' indent hind hdr'
  exact ⟨doc', h3, h4 ⟨_, hj, by decide⟩⟩

/-! ### Examples -/

/-- A manifest with a duration that is too large by less than a millisecond. -/
@[irreducible] def topDoc : Bytes := b!"<MPD xmlns=\"urn:mpeg:dash:schema:mpd:2011\" profiles=\"p\" type=\"static\" minBufferTime=\"PT4S\" mediaPresentationDuration=\"PT2562047H47M16.855S\"><Period id=\"1\"><AdaptationSet mimeType=\"video/mp4\"><Representation id=\"1\" bandwidth=\"500000\"/></AdaptationSet></Period></MPD>"

@[irreducible] def topVal : Val := valOf twoIO topDoc

theorem topVal_any (io : FloatIO) : unmarshalDoc io tMPD.sch topDoc = .ok topVal := by krfl

theorem topVal_ok : calm tMPD.sch topVal = true ∧ nsB [] [] [] none tMPD.sch topVal = true ∧
    durs tMPD.sch topVal = [-9223372036854551616, 4000000000] := by decide +kernel

/-- What is written for it. -/
@[irreducible] def topOut : Bytes := match writeDoc twoIO tMPD.sch topVal [] false with
  | .ok doc => doc
  | .error _ => []

/-- **C82**, refuted without the condition: a document that is read as a manifest, which is written as a document that cannot
be read. -/
theorem C82_refuted (io : FloatIO) : ¬ ∀ (doc : Bytes) (v : Val), unmarshalDoc io tMPD.sch doc = .ok v →
    ∃ doc' w, writeDoc io tMPD.sch v [] false = .ok doc' ∧ unmarshalDoc io tMPD.sch doc' = .ok w := by
  intro h
  obtain ⟨doc', w, h1, h2⟩ := h topDoc topVal (topVal_any io)
  have e1 : writeDoc io tMPD.sch topVal [] false = .ok topOut := by krfl
  have e2 : unmarshalDoc io tMPD.sch topOut = .error .duration := by krfl
  rw [e1] at h1
  injection h1 with h1
  subst h1
  rw [e2] at h2
  cases h2

/-- It is read, and written, and then cannot be read. -/
example (io : FloatIO) (hio : GoFloats io) : ∃ doc, writeDoc io tMPD.sch topVal [ch%' '] true = .ok doc ∧
    unmarshalDoc io tMPD.sch doc = .error .duration := by
  obtain ⟨doc, h1, -, h2⟩ := C82_rewrite_partial io hio topDoc topVal (topVal_any io) topVal_ok.1 [] liveVal_ok.2.2.2
    (nsB_sound _ _ _ _ _ _ topVal_ok.2.1) [ch%' '] (by simp [IsWs]) true
  exact ⟨doc, h1, h2 ⟨-9223372036854551616, by rw [topVal_ok.2.2]; simp, by decide⟩⟩

/-- A live manifest is read again. -/
example (io : FloatIO) (hio : GoFloats io) : ∃ doc w, writeDoc io tMPD.sch liveVal [] true = .ok doc ∧
    unmarshalDoc io tMPD.sch doc = .ok w := by
  obtain ⟨doc, h1, h2, -⟩ := C82_readable_partial io hio [] (by simp [IsWs]) true [] liveVal_ok.2.2.2 liveVal liveVal_typed
    (by
      have h := liveVal_ok.1
      have hc : calm tMPD.sch liveVal = true := by decide +kernel
      rw [liveVal_def] at h hc ⊢
      exact came_undur (L := mpdLocs) _ _ _ mpd_names mpd_ok mpd_rt mpd_durOk (unmarshalDoc_typed twoIO _ _ _ mpd_ok (valOf_ok twoIO _ h))
        (unmarshalDoc_came twoIO mpdLocs _ _ _ mpd_ok mpd_rt mpd_zrt (by decide +kernel) (valOf_ok twoIO _ h)) hc)
    (nsB_sound _ _ _ _ _ _ liveVal_ok.2.2.1)
  have hd : ((durs tMPD.sch liveVal).all fun i => decide (0 ≤ i)) = true := by decide +kernel
  obtain ⟨w, hw⟩ := h2.2 fun i hi => by simpa using List.all_eq_true.1 hd i hi
  exact ⟨doc, w, h1, hw⟩

/-- The same manifest with the largest duration. -/
@[irreducible] def maxVal : Val :=
  match tMPD.sch, topVal with
  | .struct _ _ infos _, .struct xv vs =>
    .struct xv (List.zipWith (fun f v => if f.loc = (b!"mediaPresentationDuration") then .ptr (some (.int (2 ^ 63 - 1))) else v) infos vs)
  | _, _ => .absent

theorem maxVal_ok : typedB tMPD.sch maxVal = true ∧ fineValB none tMPD.sch maxVal = true ∧
    nsB [] [] [] none tMPD.sch maxVal = true ∧ durs tMPD.sch maxVal = [2 ^ 63 - 1, 4000000000] := by decide +kernel

example (io : FloatIO) (hio : GoFloats io) : ∃ doc w, writeDoc io tMPD.sch maxVal [] true = .ok doc ∧
    unmarshalDoc io tMPD.sch doc = .ok w ∧ -9223372036854551616 ∈ durs tMPD.sch w := by
  obtain ⟨doc, w, h1, h2, h3, -⟩ := C82_second_partial io hio true [] liveVal_ok.2.2.2 maxVal (typedB_sound _ _ maxVal_ok.1)
    (fineValB_sound _ _ _ maxVal_ok.2.1) (nsB_sound _ _ _ _ _ _ maxVal_ok.2.2.1)
    ⟨2 ^ 63 - 1, by rw [maxVal_ok.2.2.2]; simp, by decide⟩
  exact ⟨doc, w, h1, h2, h3⟩

end Verif.Bind
