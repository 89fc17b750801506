import Verif.MiscProps
import Verif.DurationProps
import Verif.PeriodProps

/-!
Exactly when properties that are false in general (C05, C19) hold, what is returned where C17 does not hold, and of the
special case in C10.
-/
namespace Verif.Duration
open Verif DurationSpec

/-- C05, for durations with a whole number of seconds (at most 104 days in the seconds field): the result is the denoted time
modulo 2^64 nanoseconds, and it is negative exactly when that is in the upper half. -/
theorem C05_sign_iff (a : Arch) (f : Fields) (hf : f.Valid) (n : ℕ) (hn : f.sv = n) (hb : n ≤ 9007199)
    (N : ℤ) (hN : f.nanos = N) :
    ∃ v, parse a f.text = .ok v ∧ IsI64 v ∧ (v - N) % 2 ^ 64 = 0 ∧ (0 ≤ v ↔ N % 2 ^ 64 < 2 ^ 63) := by
  refine ⟨Fields.result a f, (parse_iff a _ _).mpr ⟨f, hf, rfl, rfl⟩, ?_⟩
  have hs : (if f.S = none then 0 else secNanos a f.sv) = (n : ℤ) * 1000000000 := by
    split_ifs with hS
    · have h0 := hf.hS
      rw [hS] at h0
      have h0 : f.sv = 0 := h0
      rw [h0] at hn
      have : n = 0 := by exact_mod_cast hn.symm
      simp [this]
    · rw [hn]; exact secNanos_nat a n hb
  have hN' : N = 86400000000000 * (fldVal f.D : ℤ) + 3600000000000 * fldVal f.H + 60000000000 * fldVal f.M + n * 1000000000 := by
    unfold Fields.nanos at hN
    rw [hn] at hN
    have : ((N : ℤ) : ℚ) = ((86400000000000 * (fldVal f.D : ℤ) + 3600000000000 * fldVal f.H + 60000000000 * fldVal f.M +
      n * 1000000000 : ℤ) : ℚ) := by rw [← hN]; push_cast; ring
    exact_mod_cast this
  unfold Fields.result
  rw [hs, ← hN']
  clear hN' hN hs
  unfold i64 IsI64
  omega

/-- Fields meeting the hypotheses, denoting more than 2^63 nanoseconds. -/
def wrapFields : Fields := ⟨some (b!"106752"), none, none, none, 0, .absent⟩

example : wrapFields.Valid ∧ wrapFields.text = b!"P106752D" ∧ wrapFields.sv = (0 : ℕ) ∧
    wrapFields.nanos = ((106752 * 86400000000000 : ℤ) : ℚ) := by
  refine ⟨⟨?_, by simp [wrapFields], by simp [wrapFields], by simp [wrapFields, SecOK], by simp [wrapFields], by simp [wrapFields]⟩,
    by decide, by decide +kernel, by decide +kernel⟩
  intro n hn
  have hn : n = b!"106752" := by simpa [wrapFields, eq_comm] using hn
  subst hn
  exact ⟨⟨by simp, by decide⟩, by decide +kernel⟩

/-- The result for `P106752D`, with a negative result, and of `P213504D`, which wraps to a positive one.  Both are as the theorem says. -/
example : parse ⟨fun _ => 0⟩ (b!"P106752D") = .ok (-9223371273709551616) ∧ (106752 * 86400000000000 : ℤ) % 2 ^ 64 ≥ 2 ^ 63 ∧
    parse ⟨fun _ => 0⟩ (b!"P213504D") = .ok 1526290448384 ∧ (213504 * 86400000000000 : ℤ) % 2 ^ 64 < 2 ^ 63 := by decide +kernel

end Verif.Duration

namespace Verif.Misc
open Verif

theorem dash_split : ∀ {x x' y y' : Bytes}, (∀ b ∈ x, isDigit b = true) → (∀ b ∈ x', isDigit b = true) →
    x ++ ch%'-' :: y = x' ++ ch%'-' :: y' → x = x' ∧ y = y'
  | [], [], _, _, _, _, h => ⟨rfl, by simpa using h⟩
  | [], c :: _, _, _, _, h', h => by
      simp only [List.nil_append, List.cons_append, List.cons.injEq] at h
      have := h' c (by simp); rw [← h.1] at this; exact absurd this (by decide)
  | c :: _, [], _, _, h', _, h => by
      simp only [List.nil_append, List.cons_append, List.cons.injEq] at h
      have := h' c (by simp); rw [h.1] at this; exact absurd this (by decide)
  | c :: x, c' :: x', y, y', h1, h2, h => by
      simp only [List.cons_append, List.cons.injEq] at h
      have := dash_split (fun b hb => h1 b (by simp [hb])) (fun b hb => h2 b (by simp [hb])) h.2
      exact ⟨by rw [h.1, this.1], this.2⟩

theorem range_iff (a b p n : Nat) : IsRange (Strconv.formatUint a ++ ch%'-' :: Strconv.formatUint b) p n ↔ a = p ∧ b + 1 = p + n := by
  constructor
  · rintro ⟨x, y, e, -, -, dx, -, vx, vy⟩
    obtain ⟨rfl, rfl⟩ := dash_split (Strconv.formatUint_digits a) dx e
    rw [Strconv.formatUint_val] at vx vy
    exact ⟨vx, vy⟩
  · rintro ⟨rfl, h⟩
    exact ⟨_, _, rfl, Strconv.formatUint_ne _, Strconv.formatUint_ne _, Strconv.formatUint_digits _, Strconv.formatUint_digits _,
      Strconv.formatUint_val _, by rw [Strconv.formatUint_val]; exact h⟩

/-- C19: both ranges are right exactly when the initialization size is positive and the sum of the sizes is at most 2^32. -/
theorem C19_iff (i s : Nat) (hi : i < 2^32) (hs : s < 2^32) (e : Bool) :
    ((∃ r, (setSegmentBase i s e).initRange = some r ∧ IsRange r 0 i) ∧ IsRange (setSegmentBase i s e).indexRange i s) ↔
    1 ≤ i ∧ i + s ≤ 2^32 := by
  have z : Strconv.formatUint 0 = [ch%'0'] := by decide +kernel
  have h0 : ∀ t : Bytes, (b!"0-") ++ t = Strconv.formatUint 0 ++ ch%'-' :: t := fun t => by rw [z]; rfl
  have e1 : (∃ r, (setSegmentBase i s e).initRange = some r ∧ IsRange r 0 i) ↔ u32 (i + (2^32 - 1)) + 1 = i := by
    have : (setSegmentBase i s e).initRange = some ((b!"0-") ++ Strconv.formatUint (u32 (i + (2^32 - 1)))) := by
      unfold setSegmentBase; with_reducible rfl
    rw [this, h0]
    generalize u32 (i + (2^32 - 1)) = k
    constructor
    · rintro ⟨r, hr, h⟩
      injection hr with hr
      rw [← hr, range_iff] at h
      omega
    · intro h
      exact ⟨_, rfl, (range_iff _ _ _ _).mpr (by omega)⟩
  have e2 : IsRange (setSegmentBase i s e).indexRange i s ↔ u32 (u32 (i + s) + (2^32 - 1)) + 1 = i + s := by
    have : (setSegmentBase i s e).indexRange = Strconv.formatUint i ++ ch%'-' ::
        Strconv.formatUint (u32 (u32 (i + s) + (2^32 - 1))) := by unfold setSegmentBase; with_reducible rfl
    rw [this, range_iff]
    simp only [true_and]
  rw [e1, e2]
  clear e1 e2 h0 z
  unfold u32
  omega

/-- A case on either side of the bound. -/
example : (setSegmentBase 1 4294967295 true).indexRange = b!"1-4294967295" ∧
    (setSegmentBase 2 4294967295 true).indexRange = b!"2-0" := by decide +kernel

end Verif.Misc

namespace Verif.Period
open Verif

/-- C10, the only period of a static manifest: the duration is that of the presentation exactly when the period has the
attribute start with value 0. -/
theorem C10_single_iff (h : Heap) (m p : Addr) (e : Int) (hl : WellLinked h m)
    (hp : (h.mpd m).periods = [p]) (hst : isStatic h m = true) (he : (h.mpd m).mpDur = some e)
    (hd : (h.period p).dur = none) (hs : ∀ s ∈ (h.period p).start, IsI64 s) (hi : IsI64 e) :
    getDuration h p = .ok e ↔ (h.period p).start = some 0 := by
  refine ⟨fun hg => ?_, fun h0 => C10_single_partial h m p e hl hp hst he hd h0 hi⟩
  have := ((C10_duration_rule h m hl (by simp [hp]) 0 p (by simp [hp])).1 e).1 hg
  have hent : entries h m = [((h.period p).start, none)] := by simp [entries, hp, hd]
  rw [hent, he] at this
  cases this with
  | explicit h1 => simp at h1
  | next h1 h2 h3 => simp at h2
  | last h1 h2 h3 h4 =>
    simp at h3 h2
    have := hs _ h3
    rename_i s e'
    have h6 : s = 0 := by
      rw [h2] at hi
      clear hg he
      unfold i64 at h2; unfold IsI64 at hi this; omega
    rw [h3, h6]

/-- A static manifest of 5 ns with one period. -/
def onePeriod (s : Option Int) : Heap :=
  { mpd := fun _ => { periods := [1], mpDur := some 5 }, period := fun _ => { parent := some 0, start := s },
    aset := fun _ => {}, rep := fun _ => {}, sub := fun _ => {} }

example : getDuration (onePeriod (some 0)) 1 = .ok 5 ∧ getDuration (onePeriod (some 2)) 1 = .ok 3 ∧
    getDuration (onePeriod none) 1 = .error .unknownDur := by decide

end Verif.Period

namespace Verif.Misc
open Verif

/-- `out` is `s` with every occurrence of `old` replaced by `new`, from left to right, each search beginning after the last
occurrence replaced. -/
inductive Replaced (old new : Bytes) : Bytes → Bytes → Prop
  | done {s : Bytes} : ¬ old <:+: s → Replaced old new s s
  | step {p s out : Bytes} : (∀ q r, p ++ old ++ s = q ++ old ++ r → p.length ≤ q.length) → Replaced old new s out →
      Replaced old new (p ++ old ++ s) (p ++ new ++ out)

theorem replGo_none (old new : Bytes) : ∀ s : Bytes, ¬ old <:+: s → replGo old new 0 s = s
  | [], _ => rfl
  | b :: s, h => by
    rw [replGo_cons, if_neg, replGo_none old new s]
    · exact fun hc => h (hc.trans (List.suffix_cons b s).isInfix)
    · intro hp
      exact h (List.isPrefixOf_iff_prefix.1 hp).isInfix

theorem replGo_first (old new : Bytes) (ho : old ≠ []) : ∀ p s : Bytes,
    (∀ q r, p ++ old ++ s = q ++ old ++ r → p.length ≤ q.length) →
    replGo old new 0 (p ++ old ++ s) = p ++ new ++ replGo old new 0 s
  | [], s, _ => by
    obtain ⟨b, o, rfl⟩ := List.exists_cons_of_ne_nil ho
    simp only [List.nil_append, List.cons_append]
    rw [replGo_cons, if_pos (by rw [List.isPrefixOf_iff_prefix]; simp)]
    simp only [List.length_cons, Nat.add_sub_cancel]
    rw [replGo_skip]
  | b :: p, s, h => by
    simp only [List.cons_append] at h ⊢
    rw [replGo_cons, if_neg, replGo_first old new ho p s]
    · intro q r e
      have := h (b :: q) r (by rw [List.cons_append, List.cons_append, e])
      simpa using this
    · intro hp
      obtain ⟨r, hr⟩ := List.isPrefixOf_iff_prefix.1 hp
      have := h [] r (by rw [List.nil_append, hr])
      simp at this

/-- An occurrence has a first one. -/
theorem first_infix (old : Bytes) : ∀ s : Bytes, old <:+: s →
    ∃ p r, s = p ++ old ++ r ∧ ∀ q r', p ++ old ++ r = q ++ old ++ r' → p.length ≤ q.length := by
  intro s h
  obtain ⟨p0, r0, e0⟩ := h
  have : ∃ n, ∃ p r, s = p ++ old ++ r ∧ p.length = n := ⟨_, p0, r0, e0.symm, rfl⟩
  classical
  obtain ⟨p, r, e, hl⟩ := Nat.find_spec this
  refine ⟨p, r, e, fun q r' hq => ?_⟩
  rw [hl]
  exact Nat.find_min' this ⟨q, r', by rw [e, hq], rfl⟩

theorem replaceAll_spec (old new : Bytes) (ho : old ≠ []) : ∀ (n : ℕ) (s : Bytes), s.length ≤ n →
    Replaced old new s (replaceAll s old new)
  | n, s, hn => by
    by_cases h : old <:+: s
    · obtain ⟨p, r, rfl, hf⟩ := first_infix old s h
      unfold replaceAll
      rw [replGo_first old new ho p r hf]
      have hpos := List.length_pos_iff.2 ho
      cases n with
      | zero => simp only [List.length_append] at hn; omega
      | succ n => exact .step hf (replaceAll_spec old new ho n r (by simp only [List.length_append] at hn; omega))
    · unfold replaceAll
      rw [replGo_none old new s h]
      exact .done h

/-- `ReplaceAll` is characterised by `Replaced`. -/
theorem C17_replace (old new : Bytes) (ho : old ≠ []) (s out : Bytes) :
    replaceAll s old new = out ↔ Replaced old new s out := by
  constructor
  · rintro rfl
    exact replaceAll_spec old new ho _ s le_rfl
  · intro h
    induction h with
    | done h => exact replGo_none old new _ h
    | step hf _ ih =>
      unfold replaceAll at ih ⊢
      rw [replGo_first old new ho _ _ hf, ih]

/-- C17 for every template, well-formed or not, and every id: the identifiers `$RepresentationID$` are replaced first, in what
comes out of it the identifiers `$Bandwidth$`, wherever they come from. -/
theorem C17_exact (r : Rep) (s out : Bytes) : r.expand s = out ↔ ∃ mid, Replaced (b!"$RepresentationID$") r.id s mid ∧
    Replaced (b!"$Bandwidth$") (Strconv.formatUint r.bandwidth) mid out := by
  unfold Rep.expand
  rw [C17_replace _ _ (by decide)]
  constructor
  · exact fun h => ⟨_, (C17_replace _ _ (by decide) _ _).1 rfl, h⟩
  · rintro ⟨mid, h1, h2⟩
    rw [(C17_replace _ _ (by decide) _ _).2 h1]
    exact h2

/-- Both identifiers, the second inside the id. -/
example : Replaced (b!"$RepresentationID$") (b!"$Bandwidth$") (b!"a/$RepresentationID$") (b!"a/$Bandwidth$") :=
  (C17_replace _ _ (by decide) _ _).1 (by decide)

end Verif.Misc
