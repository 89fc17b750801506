import Verif.DurationForm
import Verif.DurationParse

/-
Property theorems for durations: C01 - C06.
-/
namespace Verif.Duration

open Verif Verif.DurationSpec

/-! ### C01 rendering, C02 buffer -/

theorem xsdSeconds_of_dotFrac (ip : Nat) (fs : Bytes) (hf : ∀ b ∈ fs, isDigit b = true) :
    XsdSeconds (digits ip ++ dotFrac fs) (ip + (decVal fs : ℚ) / 10 ^ fs.length) := by
  unfold dotFrac
  by_cases h : fs = []
  · subst h
    have := XsdSeconds.int (digits ip) (digits_Digits ip)
    rw [digits_decVal] at this
    simpa [decVal_nil] using this
  · rw [if_neg h]
    have := XsdSeconds.frac (digits ip) fs (digits_Digits ip) ⟨h, hf⟩
    rwa [digits_decVal] at this

/-- Helper: what is printed is always an `xs:duration`, of the stated value. -/
theorem goString_xsd (d : Int) (hd : IsI64 d) (h0 : d ≠ 0) :
    ∃ s, goString d = some s ∧ XsdDuration s ((if d < 0 then -1 else 1) *
      (if d.natAbs < 500000 then (d.natAbs : ℚ) / 1000000000
       else if d.natAbs < 1000000000 then (((d.natAbs + 500000) / 1000000 % 1000 : ℕ) : ℚ) / 1000
       else (((d.natAbs + 500000) / 1000000 : ℕ) : ℚ) / 1000)) := by
  obtain ⟨H, M, S, sv, hf, he⟩ := goString_form d hd h0
  refine ⟨_, he, ?_⟩
  rw [← hf.val]
  have hS : XsdSecOK S sv := by
    have := hf.hS
    cases S with
    | none => exact this
    | some n =>
      obtain ⟨ip, fs, rfl, _, h3, _, _, rfl⟩ := this
      exact xsdSeconds_of_dotFrac ip fs h3
  have hx := XsdDuration.mk (decide (d < 0)) none H M S sv (by simp) (fun n hn => (hf.hH n hn).1)
    (fun n hn => (hf.hM n hn).1) hS (Or.inr hf.any)
  have hn : ¬ (H = none ∧ M = none ∧ S = none) := by
    rintro ⟨a, b, c⟩
    rcases hf.any with h | h | h
    · exact h a
    · exact h b
    · exact h c
  rw [if_neg hn] at hx
  simpa [fld, fldVal] using hx

/-- **C01 (full statement, refuted below)**: every duration is rendered as an `xs:duration` equal to it
rounded to milliseconds, or exactly when below half a millisecond. -/
def C01_statement : Prop := ∀ d : Int, IsI64 d → ∃ s, goString d = some s ∧
  XsdDuration s (if d.natAbs < 500000 then (d : ℚ) / 1000000000 else roundMs d)

/-- C01 holds for all durations except those whose magnitude is in [0.9995 s, 1 s). -/
theorem C01_string_denotes_partial (d : Int) (hd : IsI64 d)
    (hx : ¬ (999500000 ≤ d.natAbs ∧ d.natAbs < 1000000000)) :
    ∃ s, goString d = some s ∧
      XsdDuration s (if d.natAbs < 500000 then (d : ℚ) / 1000000000 else roundMs d) := by
  by_cases h0 : d = 0
  · subst h0
    refine ⟨b!"PT0S", by decide, ?_⟩
    have hx := XsdDuration.mk false none none none (some (b!"0")) _ (by simp) (by simp) (by simp)
      (XsdSeconds.int (b!"0") ⟨by simp, by simp; decide⟩) (by simp)
    simpa [fld, fldVal, decVal] using hx
  obtain ⟨s, he, hs⟩ := goString_xsd d hd h0
  refine ⟨s, he, ?_⟩
  have habs : ((if d < 0 then -1 else 1 : ℚ)) * (d.natAbs : ℚ) = d := by
    by_cases hn : d < 0
    · have : ((d.natAbs : ℤ) : ℚ) = ((-d : ℤ) : ℚ) := by congr 1; omega
      rw [if_pos hn, show ((d.natAbs : ℕ) : ℚ) = ((d.natAbs : ℤ) : ℚ) from rfl, this]; push_cast; ring
    · have : ((d.natAbs : ℤ) : ℚ) = ((d : ℤ) : ℚ) := by congr 1; omega
      rw [if_neg hn, show ((d.natAbs : ℕ) : ℚ) = ((d.natAbs : ℤ) : ℚ) from rfl, this]; ring
  by_cases h1 : d.natAbs < 500000
  · rw [if_pos h1] at hs ⊢
    rw [← habs]; rwa [mul_div_assoc]
  · rw [if_neg h1] at hs ⊢
    unfold roundMs
    rw [mul_div_assoc]
    by_cases h2 : d.natAbs < 1000000000
    · rw [if_pos h2] at hs
      have : (d.natAbs + 500000) / 1000000 % 1000 = (d.natAbs + 500000) / 1000000 := by omega
      rwa [this] at hs
    · rwa [if_neg h2] at hs

-- The hypotheses are met by, e.g., 1 h 1 min 1.0015 s and by the most negative duration.
example : IsI64 3661001500000 ∧ ¬ (999500000 ≤ (3661001500000:Int).natAbs ∧ (3661001500000:Int).natAbs < 1000000000) := by decide
example : goString 3661001500000 = some (b!"PT1H1M1.002S") := by decide +kernel
example : IsI64 (-9223372036854775808) ∧ goString (-9223372036854775808) = some (b!"-PT2562047H47M16.855S") := by decide +kernel

theorem xsd_PT0S {v : ℚ} (h : XsdDuration (b!"PT0S") v) : v = 0 := by
  generalize hs : b!"PT0S" = s at h
  cases h with
  | mk neg D H M S sv hD hH hM hS hany =>
    cases neg with
    | true => simp at hs
    | false =>
      have hDn : D = none := by
        cases D with
        | none => rfl
        | some n =>
          have ⟨hne, hd⟩ := hD n rfl
          cases n with
          | nil => exact absurd rfl hne
          | cons c cs =>
            simp [fld] at hs
            have := hd c List.mem_cons_self
            rw [← hs.1] at this
            exact absurd this (by decide)
      subst hDn
      by_cases hn : H = none ∧ M = none ∧ S = none
      · simp [fld, hn] at hs
      · simp only [Bool.false_eq_true, if_false, if_neg hn, fld, List.nil_append, List.cons.injEq, true_and] at hs
        have hmem : ∀ x ∈ fld ch%'H' H ++ fld ch%'M' M ++ fld ch%'S' S, x = 48 ∨ x = 83 := by
          rw [← show [48, 83] = fld ch%'H' H ++ fld ch%'M' M ++ fld ch%'S' S from hs]
          simp
        have hHn : H = none := by
          cases H with
          | none => rfl
          | some n =>
            exact absurd (hmem ch%'H' (by simp [fld])) (by decide)
        have hMn : M = none := by
          cases M with
          | none => rfl
          | some n =>
            exact absurd (hmem ch%'M' (by simp [fld])) (by decide)
        subst hHn hMn
        cases S with
        | none => simp at hn
        | some n =>
          have : [48] ++ [ch%'S'] = n ++ [ch%'S'] := by simpa [fld] using hs
          have hn48 := List.append_cancel_right this
          subst hn48
          simp only [XsdSecOK] at hS
          generalize hz : ([48] : Bytes) = z at hS
          cases hS with
          | int _ _ => subst hz; simp [fldVal, decVal]
          | frac ip fp _ _ =>
            have : ch%'.' ∈ ([48] : Bytes) := by rw [hz]; simp
            exact absurd this (by decide)

/-- C01 is false of the code: 0.9995 s is rendered as `PT0S`, i.e. zero, although it rounds to one second. -/
theorem C01_refuted : ¬ C01_statement := by
  intro h
  obtain ⟨s, hs, hv⟩ := h 999500000 (by decide)
  rw [show goString 999500000 = some (b!"PT0S") by decide +kernel] at hs
  injection hs with hs
  subst hs
  have := xsd_PT0S hv
  revert this
  rw [if_neg (by decide)]
  decide +kernel

/-- All durations in the exceptional range are rendered as plus or minus zero seconds. -/
theorem C01_exceptional_range (d : Int) (hx : 999500000 ≤ d.natAbs ∧ d.natAbs < 1000000000) :
    goString d = some ((if d < 0 then [ch%'-'] else []) ++ b!"PT0S") := by
  have hd : IsI64 d := by unfold IsI64; omega
  have hu0 : (d % 2^64).toNat ≠ 0 := by omega
  have hu : (if (decide (d < 0) : Bool) then (2^64 - (d % 2^64).toNat) % 2^64 else (d % 2^64).toNat) = d.natAbs := by
    by_cases hn : d < 0
    · rw [if_pos (by simpa using hn)]; omega
    · rw [if_neg (by simpa using hn)]; omega
  unfold goString
  simp only [hu]
  rw [if_neg hu0, put_ok _ (by simp)]
  simp only [Option.bind_some]
  have h1 : d.natAbs / 1000000000 = 0 := by omega
  have h2 : msOf (d.natAbs - d.natAbs / 1000000000 * 1000000000) = 1000 := by
    rw [msOf_eq (by omega)]; omega
  have h3 : fmtBody [ch%'S'] d.natAbs (d.natAbs / 1000000000) 1000 = some (b!"0S") := by
    unfold fmtBody
    rw [if_neg (by simp), if_pos h1]
    decide
  rw [h2, h3]
  simp only [Option.bind_some]
  rw [finish _ _ (by simp)]

/-- **C02**: rendering never overruns the buffer, for any duration; at most 21 of the 32 bytes are used. -/
theorem C02_string_total (d : Int) (hd : IsI64 d) : ∃ s, goString d = some s ∧ s.length ≤ 21 := by
  by_cases h0 : d = 0
  · subst h0; exact ⟨b!"PT0S", by decide, by decide⟩
  · obtain ⟨H, M, S, sv, hf, he⟩ := goString_form d hd h0
    refine ⟨_, he, ?_⟩
    have := hf.length_le
    have h1 : (if d < 0 then [ch%'-'] else ([] : Bytes)).length ≤ 1 := by split <;> simp
    simp only [List.length_append, List.length_cons] at this h1 ⊢
    omega

example : IsI64 (-9223372036854775808) := by decide

/-! ### C04 grammar -/

/-- **C04**: the accepted strings are exactly those of the grammar `Fields.Valid`, on every platform. -/
theorem C04_accepts_iff (a : Arch) (s : Bytes) :
    (∃ v, parse a s = .ok v) ↔ ∃ f : Fields, f.Valid ∧ s = f.text := by
  constructor
  · rintro ⟨v, h⟩
    obtain ⟨f, hf, he, _⟩ := (parse_iff a s v).mp h
    exact ⟨f, hf, he⟩
  · rintro ⟨f, hf, he⟩
    exact ⟨_, (parse_iff a s _).mpr ⟨f, hf, he, rfl⟩⟩

/-- Documented format `P[nD][T[nH][nM][nS]]`: accepted. -/
theorem C04_documented_accepted (a : Arch) (f : Fields) (hv : f.Valid) (_ht : f.t ≠ .beforeD) :
    ∃ v, parse a f.text = .ok v := (C04_accepts_iff a _).mpr ⟨f, hv, rfl⟩

/-- Every accepted string consists of digits, dots and designators only; so signs, blanks, years and
weeks are rejected. -/
theorem C04_alphabet (a : Arch) (s : Bytes) (v : Int) (h : parse a s = .ok v) :
    ∀ b ∈ s, isDigit b = true ∨ b ∈ b!"PDTHMS." := by
  obtain ⟨f, hf, rfl, _⟩ := (parse_iff a s v).mp h
  have hfld : ∀ (u : UInt8) (o : Option Bytes), u ∈ b!"PDTHMS." →
      (∀ n ∈ o, ∀ b ∈ n, isDigit b = true ∨ b = ch%'.') → ∀ b ∈ fld u o, isDigit b = true ∨ b ∈ b!"PDTHMS." := by
    intro u o hu ho b hb
    cases o with
    | none => simp [fld] at hb
    | some n =>
      simp only [fld, List.mem_append, List.mem_singleton] at hb
      rcases hb with hb | rfl
      · rcases ho n rfl b hb with h | rfl
        · exact Or.inl h
        · right; decide
      · exact Or.inr hu
  have hsec : ∀ n ∈ f.S, ∀ b ∈ n, isDigit b = true ∨ b = ch%'.' := by
    intro n hn b hb
    have := hf.hS
    rw [Option.mem_def] at hn
    rw [hn] at this
    have h1 := this.1
    generalize f.sv = x at h1
    cases h1 with
    | int _ h => exact Or.inl (h.2 b hb)
    | frac ip fp hi hfp _ =>
      rcases List.mem_append.mp hb with hb | hb
      · exact Or.inl (hi b hb)
      · rcases List.mem_cons.mp hb with rfl | hb
        · exact Or.inr rfl
        · exact Or.inl (hfp b hb)
  intro b hb
  unfold Fields.text at hb
  simp only [List.mem_cons, List.mem_append] at hb
  rcases hb with rfl | ((((hb | hb) | hb) | hb) | hb) | hb
  · right; decide
  · split at hb
    · simp at hb; subst hb; right; decide
    · simp at hb
  · exact hfld _ _ (by decide) (fun n hn b hb => Or.inl ((hf.hD n hn).1.2 b hb)) b hb
  · split at hb
    · simp at hb; subst hb; right; decide
    · simp at hb
  · exact hfld _ _ (by decide) (fun n hn b hb => Or.inl ((hf.hH n hn).1.2 b hb)) b hb
  · exact hfld _ _ (by decide) (fun n hn b hb => Or.inl ((hf.hM n hn).1.2 b hb)) b hb
  · exact hfld _ _ (by decide) hsec b hb

/-- The model's fuel is never exhausted: `ParseDuration` returns for every input. -/
theorem C04_no_fuel (a : Arch) (s : Bytes) : parse a s ≠ .error .fuel := by
  have key : ∀ (k : Nat) (s : Bytes) (st : PSt), s.length ≤ k → parseLoop a k s st ≠ .error .fuel := by
    intro k
    induction k with
    | zero =>
      intro s st h
      cases s with
      | nil => unfold parseLoop; split <;> simp
      | cons c cs => simp at h
    | succ k ih =>
      intro s st h
      cases s with
      | nil => unfold parseLoop; split <;> simp
      | cons c cs =>
        unfold parseLoop
        split
        · split
          · simp
          · exact ih _ _ (by simp at h; omega)
        · split
          · simp
          · obtain ⟨n, r, d, hs1, hs2, _⟩ := scan_false_spec (c :: cs)
            rw [hs1]
            simp only
            split
            · simp
            · next hne =>
              cases r with
              | nil => simp
              | cons u r =>
                simp only
                split
                · simp
                split
                · simp
                split
                · simp
                split
                · simp
                split
                · next e he =>
                  intro hc
                  injection hc with hc
                  subst hc
                  unfold addField at he
                  split at he
                  · split at he <;> simp at he
                  split at he
                  · split at he <;> simp at he
                  split at he
                  · split at he <;> simp at he
                  · split at he <;> simp at he
                · apply ih
                  have hl := congrArg List.length hs2
                  have := List.length_pos_of_ne_nil hne
                  simp at hl h; omega
  unfold parse
  split
  · simp
  · split
    · simp
    · split
      · simp
      · split
        · simp
        · exact key _ _ _ le_rfl

-- A documented string, and the deviations from the documented format that the code accepts.
example : (⟨some (b!"1"), some (b!"2"), none, some (b!"3.5"), 7/2, .afterD⟩ : Fields).Valid ∧
    (⟨some (b!"1"), some (b!"2"), none, some (b!"3.5"), 7/2, .afterD⟩ : Fields).text = b!"P1DT2H3.5S" := by
  refine ⟨⟨?_, ?_, by simp, ⟨?_, ?_⟩, by simp, by simp⟩, rfl⟩
  · simp; exact ⟨⟨by simp, by simp; decide⟩, by decide⟩
  · simp; exact ⟨⟨by simp, by simp; decide⟩, by decide⟩
  · have := SecNumeral.frac (b!"3") (b!"5") (by simp; decide) (by simp; decide) (by simp)
    have e : ((decVal (b!"3") : ℕ) : ℚ) + (decVal (b!"5") : ℕ) / 10 ^ (b!"5" : Bytes).length = 7/2 := by decide +kernel
    rw [e] at this; exact this
  · decide +kernel
example (a : Arch) : parse a (b!"PT1D") = .ok 86400000000000 := by
  simp [parse, parseLoop, scan, isDigit, rank, addField, parseUint64, decVal, i64]
example (a : Arch) : parse a (b!"P1DT") = .ok 86400000000000 := by
  simp [parse, parseLoop, scan, isDigit, rank, addField, parseUint64, decVal, i64]

/-! ### C03 value, C05 no negative result -/

theorem fl_err_all {q : ℚ} (h : 0 ≤ q) : |fl q - q| ≤ q * pow2 (-53) + pow2 (-1075) := by
  have p1 := pow2_pos (-53)
  have p2 := pow2_pos (-1075)
  rcases h.lt_or_eq with h | h
  · by_cases hn : pow2 (-1022) ≤ q
    · have := fl_rel hn; linarith
    · push Not at hn
      have hb := binExp_spec h
      have he : binExp q < -1022 := pow2_lt_iff.mp (lt_of_le_of_lt hb.1 hn)
      have hu : ulpExp q = -1074 := by unfold ulpExp; omega
      have := fl_err h
      rw [hu] at this
      have e : pow2 (-1074) / 2 = pow2 (-1075) := by
        rw [show (-1074 : ℤ) = -1075 + 1 by ring, pow2_add]
        have one : pow2 1 = 2 := by simp [pow2_eq]
        rw [one]; ring
      rw [e] at this
      have : 0 ≤ q * pow2 (-53) := by positivity
      linarith
  · subst h; simp [fl]; exact p2.le

/-- The seconds field: rounding errors are tiny compared to a nanosecond. -/
theorem secNanos_err (a : Arch) {sv : ℚ} (h0 : 0 ≤ sv) (h1 : sv * 1000000000 ≤ 2251799813685248) :
    ∃ g : ℚ, secNanos a sv = ⌊g⌋ ∧ 0 ≤ g ∧
      |g - sv * 1000000000| ≤ sv * 1000000000 * (pow2 (-52) + pow2 (-100)) + 1/1000000000000 := by
  have e1 := fl_err_all h0
  have f0 := fl_nonneg sv
  have e2 := fl_err_all (q := fl sv * 1000000000) (by positivity)
  set f := fl sv
  set g := fl (f * 1000000000) with hg
  have g0 : 0 ≤ g := fl_nonneg _
  have p1 := pow2_pos (-53)
  have p2 := pow2_pos (-1075)
  have p100 := pow2_pos (-100)
  have c52 : pow2 (-52) = 2 * pow2 (-53) := by
    rw [show (-52 : ℤ) = 1 + -53 by ring, pow2_add]; simp [pow2_eq]
  have c106 : pow2 (-53) * pow2 (-53) ≤ pow2 (-100) := by decide +kernel
  have t1 : pow2 (-1075) ≤ 1/1000000000000000000000000 := by decide +kernel
  have s1 : pow2 (-53) ≤ 1/1000000000000000 := by decide +kernel
  have s52 : pow2 (-52) ≤ 1/1000000000000000 := by decide +kernel
  have s100 : pow2 (-100) ≤ 1/1000000000000000 := by decide +kernel
  set e := pow2 (-53)
  set t := pow2 (-1075)
  set X := sv * 1000000000 with hX
  have X0 : 0 ≤ X := by positivity
  rw [abs_le] at e1 e2
  have b1 : |f * 1000000000 - X| ≤ X * e + 1000000000 * t := by
    rw [abs_le]; constructor <;> linarith [e1.1, e1.2]
  rw [abs_le] at b1
  have b2 : f * 1000000000 * e ≤ (X + X * e + 1000000000 * t) * e := by
    apply mul_le_mul_of_nonneg_right _ p1.le
    linarith [b1.2]
  have b3 : X * (e * e) ≤ X * pow2 (-100) := mul_le_mul_of_nonneg_left c106 X0
  have b4 : 1000000000 * t * e ≤ 1/10000000000000 := by
    have h : 1000000000 * t ≤ 1/1000000000000000 := by linarith
    have : 1000000000 * t * e ≤ 1/1000000000000000 * (1/1000000000000000) :=
      mul_le_mul h s1 p1.le (by norm_num)
    linarith
  have herr : |g - X| ≤ X * (pow2 (-52) + pow2 (-100)) + 1/1000000000000 := by
    rw [c52, abs_le]
    have hexp : (X + X * e + 1000000000 * t) * e = X * e + X * (e * e) + 1000000000 * t * e := by ring
    rw [hexp] at b2
    constructor <;> nlinarith [e2.1, e2.2, b1.1, b1.2]
  refine ⟨g, ?_, g0, herr⟩
  -- no overflow
  have hgsmall : g < 2^63 := by
    rw [abs_le] at herr
    have : X * (pow2 (-52) + pow2 (-100)) ≤ 2251799813685248 * (2/1000000000000000) := by
      apply mul_le_mul h1 (by linarith) (by linarith [pow2_pos (-52)]) (by norm_num)
    norm_num
    linarith [herr.2]
  have hov : ¬ flOverflow ≤ f * 1000000000 := by
    push Not
    have : f * 1000000000 ≤ 10000000000000000 := by
      have : X * e ≤ 2251799813685248 * 1 := by
        apply mul_le_mul h1 (by linarith) p1.le (by norm_num)
      linarith [b1.2]
    have h2 : (10000000000000000 : ℚ) < flOverflow := by decide +kernel
    linarith
  unfold secNanos f64toI64 flo
  rw [if_neg hov]
  simp only
  rw [← hg, if_pos hgsmall]

theorem secNumeral_nonneg {n : Bytes} {v : ℚ} (h : SecNumeral n v) : 0 ≤ v := by
  cases h with
  | int _ _ => positivity
  | frac _ _ _ _ _ => positivity

theorem secOK_nonneg {o : Option Bytes} {v : ℚ} (h : SecOK o v) : 0 ≤ v := by
  cases o with
  | none => simp only [SecOK] at h; rw [h]
  | some n => exact secNumeral_nonneg h.1

/-- Whole numbers of seconds are not affected by rounding. -/
theorem secNanos_nat (a : Arch) (n : ℕ) (h : n ≤ 9007199) : secNanos a n = n * 1000000000 := by
  unfold secNanos
  rw [fl_nat (by omega)]
  have e : (n : ℚ) * 1000000000 = ((n * 1000000000 : ℕ) : ℚ) := by push_cast; ring
  have hov : ¬ flOverflow ≤ (n : ℚ) * 1000000000 := by
    push Not
    have : (n:ℚ) ≤ 9007199 := by exact_mod_cast h
    have h2 : (10000000000000000 : ℚ) < flOverflow := by decide +kernel
    linarith
  unfold flo
  rw [if_neg hov, e, fl_nat (by omega)]
  unfold f64toI64
  simp only
  rw [if_pos]
  · rw [Int.floor_natCast]; push_cast; rfl
  · have : n * 1000000000 < 2^63 := by omega
    exact_mod_cast this

/-- The result for given fields. -/
theorem result_value (a : Arch) (f : Fields) (hf : f.Valid)
    (h1 : f.sv * 1000000000 ≤ 2251799813685248) (h2 : f.nanos < 2^63 - 1) (v : Int) (hv : v = Fields.result a f) :
    0 ≤ v ∧ f.nanos - 5/3 < v ∧ v < f.nanos + 2/3 ∧
        (∀ N : ℤ, f.nanos = N → v = N ∨ v = N - 1) ∧
        (∀ n : ℕ, f.sv = n → (v : ℚ) = f.nanos) := by
  have hsv := secOK_nonneg hf.hS
  obtain ⟨n, hn, hn0, hn1, hn2, hn3, hn4⟩ : ∃ n : ℤ, (if f.S = none then 0 else secNanos a f.sv) = n ∧ 0 ≤ n ∧
      f.sv * 1000000000 - 5/3 < n ∧ n < f.sv * 1000000000 + 2/3 ∧
      (∀ N : ℤ, f.sv * 1000000000 = N → n = N ∨ n = N - 1) ∧ (∀ k : ℕ, f.sv = k → n = k * 1000000000) := by
    by_cases hS : f.S = none
    · have : f.sv = 0 := by have := hf.hS; rw [hS] at this; exact this
      refine ⟨0, by rw [if_pos hS], le_rfl, ?_, ?_, ?_, ?_⟩
      · rw [this]; norm_num
      · rw [this]; norm_num
      · intro N hN; left; rw [this] at hN; simp at hN; exact_mod_cast hN
      · intro k hk; rw [this] at hk
        have : k = 0 := by exact_mod_cast hk.symm
        simp [this]
    · obtain ⟨g, hg, hg0, herr⟩ := secNanos_err a hsv h1
      have p52 : pow2 (-52) + pow2 (-100) ≤ 1/4503599627370000 := by decide +kernel
      have hb : f.sv * 1000000000 * (pow2 (-52) + pow2 (-100)) ≤ 2251799813685248 * (1/4503599627370000) := by
        apply mul_le_mul h1 p52 (by linarith [pow2_pos (-52), pow2_pos (-100)]) (by norm_num)
      have herr2 : |g - f.sv * 1000000000| < 2/3 := by linarith
      rw [abs_lt] at herr2
      have fl1 := Int.floor_le g
      have fl2 := Int.lt_floor_add_one g
      refine ⟨⌊g⌋, by rw [if_neg hS, hg], Int.floor_nonneg.mpr hg0, by linarith [herr2.1], by linarith [herr2.2], ?_, ?_⟩
      · intro N hN
        rw [hN] at herr2
        have a1 : ((N:ℤ):ℚ) - 1 - 1 < ⌊g⌋ := by linarith [herr2.1]
        have a2 : ((⌊g⌋:ℤ):ℚ) < N + 1 := by linarith [herr2.2]
        have a1' : N - 1 - 1 < ⌊g⌋ := by exact_mod_cast a1
        have a2' : ⌊g⌋ < N + 1 := by exact_mod_cast a2
        omega
      · intro k hk
        rw [← hg, hk]
        apply secNanos_nat
        rw [hk] at h1
        have : k * 1000000000 ≤ 2251799813685248 := by exact_mod_cast h1
        omega
  unfold Fields.result at hv
  rw [hn] at hv
  set D := fldVal f.D
  set H := fldVal f.H
  set M := fldVal f.M
  have hnan : f.nanos = ((86400000000000 * D + 3600000000000 * H + 60000000000 * M : ℤ) : ℚ) + f.sv * 1000000000 := by
    unfold Fields.nanos; push_cast; ring
  have hsum : (86400000000000 * (D:ℤ) + 3600000000000 * H + 60000000000 * M + n : ℤ) < 2^63 := by
    have : ((86400000000000 * (D:ℤ) + 3600000000000 * H + 60000000000 * M + n : ℤ) : ℚ) < ((2^63 : ℤ) : ℚ) := by
      rw [hnan] at h2
      push_cast at h2 ⊢
      linarith
    exact_mod_cast this
  have hvv : v = 86400000000000 * (D:ℤ) + 3600000000000 * H + 60000000000 * M + n := by
    rw [hv]; apply i64_of_isI64; unfold IsI64; omega
  have hvq : (v : ℚ) = ((86400000000000 * D + 3600000000000 * H + 60000000000 * M : ℤ) : ℚ) + n := by
    rw [hvv]; push_cast; ring
  refine ⟨by omega, by rw [hvq, hnan]; linarith, by rw [hvq, hnan]; linarith, ?_, ?_⟩
  · intro N hN
    have := hn3 (N - (86400000000000 * D + 3600000000000 * H + 60000000000 * M)) (by
      rw [hnan] at hN; push_cast at hN ⊢; linarith)
    omega
  · intro k hk
    have := hn4 k hk
    rw [hvq, hnan, hk, this]; push_cast; ring


/-- **C03**: an accepted string denotes fields, and the result is their exact sum up to the
rounding of the seconds field, provided the seconds field is at most 2^51 ns (26 days) and the sum fits in
an `int64`.  If the denoted time is a whole number of nanoseconds the result is that number or one less;
if the seconds field is a whole number the result is exact. -/
theorem C03_parse_value (a : Arch) (s : Bytes) (v : Int) (h : parse a s = .ok v) :
    ∃ f : Fields, f.Valid ∧ s = f.text ∧
      (f.sv * 1000000000 ≤ 2251799813685248 → f.nanos < 2^63 - 1 →
        0 ≤ v ∧ f.nanos - 5/3 < v ∧ v < f.nanos + 2/3 ∧
        (∀ N : ℤ, f.nanos = N → v = N ∨ v = N - 1) ∧
        (∀ n : ℕ, f.sv = n → (v : ℚ) = f.nanos)) := by
  obtain ⟨f, hf, he, hv⟩ := (parse_iff a s v).mp h
  exact ⟨f, hf, he, fun h1 h2 => result_value a f hf h1 h2 v hv⟩

/-- C05 (full statement, refuted below): success means non-negative. -/
def C05_statement : Prop := ∀ (a : Arch) (s : Bytes) (v : Int), parse a s = .ok v → 0 ≤ v

/-- 106752 days overflow the nanosecond counter: accepted, with a negative result. -/
theorem C05_refuted : ¬ C05_statement := by
  intro h
  have : parse ⟨fun _ => 0⟩ (b!"P106752D") = .ok (-9223371273709551616) := by decide +kernel
  exact absurd (h _ _ _ this) (by decide)

/-- C05 holds whenever the denoted time fits in an `int64` (and the seconds field is at most 26 days). -/
theorem C05_nonneg_partial (a : Arch) (f : Fields) (hf : f.Valid) (h1 : f.sv * 1000000000 ≤ 2251799813685248)
    (h2 : f.nanos < 2^63 - 1) (v : Int) (h : parse a f.text = .ok v) : 0 ≤ v := by
  have h' : parse a f.text = .ok (Fields.result a f) := (parse_iff a _ _).mpr ⟨f, hf, rfl, rfl⟩
  have hvv : v = Fields.result a f := by rw [h] at h'; injection h'
  exact (result_value a f hf h1 h2 v hvv).1

-- Fields meeting the hypotheses of C03 and C05 with a result that is one nanosecond short.
def exFields : Fields := ⟨none, none, none, some (b!"1.001"), 1001/1000, .afterD⟩
example : exFields.Valid ∧ exFields.text = b!"PT1.001S" ∧ exFields.sv * 1000000000 ≤ 2251799813685248 ∧
    exFields.nanos < 2^63 - 1 ∧ parse ⟨fun _ => 0⟩ exFields.text = .ok 1000999999 := by
  refine ⟨⟨by simp [exFields], by simp [exFields], by simp [exFields], ⟨?_, by decide +kernel⟩, by simp [exFields], by simp [exFields]⟩,
    by decide, by decide +kernel, by decide +kernel, by decide +kernel⟩
  have := SecNumeral.frac (b!"1") (b!"001") (by simp; decide) (by simp; decide) (by simp)
  have e : ((decVal (b!"1") : ℕ) : ℚ) + (decVal (b!"001") : ℕ) / 10 ^ (b!"001" : Bytes).length = 1001/1000 := by decide +kernel
  rw [e] at this; exact this

/-! ### C06 write/read cycles -/

/-- The duration rounded to whole milliseconds, in nanoseconds. -/
def msNanos (d : Nat) : Nat := (d + 500000) / 1000000 * 1000000

/-- Rendering depends only on the rounded milliseconds (on each side of one second). -/
theorem goString_congr {d e : Nat} (hd : 500000 ≤ d) (he : 500000 ≤ e) (hd2 : d < 2^63) (he2 : e < 2^63)
    (hT : (d + 500000) / 1000000 = (e + 500000) / 1000000) (hs : d < 1000000000 ↔ e < 1000000000) :
    goString (d : Int) = goString (e : Int) := by
  have key : ∀ x : Nat, 500000 ≤ x → x < 2^63 → goString (x : Int) =
      ((if x < 1000000000 then (fmtFrac [ch%'S'] ((x + 500000) / 1000000) 3).bind fun (acc, _) => put acc ch%'0'
        else fmtLarge [ch%'S'] ((x + 500000) / 1000000)).bind fun acc =>
      (put acc ch%'T').bind fun acc => (put acc ch%'P').bind fun acc => some acc) := by
    intro x hx1 hx2
    have hu : ((x : Int) % 2^64).toNat = x := by omega
    unfold goString
    simp only [hu]
    rw [if_neg (by omega), put_ok _ (by simp)]
    simp only [Option.bind_some]
    have hneg : (decide ((x : Int) < 0) : Bool) = false := by simp
    simp only [hneg, Bool.false_eq_true, if_false]
    have hms : msOf (x - x / 1000000000 * 1000000000) = (x % 1000000000 + 500000) / 1000000 := by
      rw [msOf_eq (by omega)]; omega
    have hb : fmtBody [ch%'S'] x (x / 1000000000) (msOf (x - x / 1000000000 * 1000000000)) =
        (if x < 1000000000 then (fmtFrac [ch%'S'] ((x + 500000) / 1000000) 3).bind fun (acc, _) => put acc ch%'0'
        else fmtLarge [ch%'S'] ((x + 500000) / 1000000)) := by
      rw [hms]
      unfold fmtBody
      by_cases h : x < 1000000000
      · rw [if_neg (by omega), if_pos (by omega), if_pos h]
        have : x % 1000000000 = x := by omega
        rw [this]
      · rw [if_neg (by omega), if_neg (by omega), if_neg h]
        congr 1
        unfold u64; omega
    rw [hb]
  rw [key d hd hd2, key e he he2, hT]
  by_cases h : d < 1000000000
  · rw [if_pos h, if_pos (hs.mp h)]
  · rw [if_neg h, if_neg (fun h' => h (hs.mpr h'))]

/-- C06 (full statement, refuted below): rendering, parsing and rendering again is stable. -/
def C06_statement : Prop := ∀ (a : Arch) (d : Nat), d < 2^63 → ∃ s v, goString d = some s ∧
  parse a s = .ok v ∧ goString v = some s

/-- 15 ns is rendered as `PT0.000000015S`, read as 14 ns and rendered as `PT0.000000014S`. -/
theorem C06_refuted : ¬ C06_statement := by
  intro h
  obtain ⟨s, v, h1, h2, h3⟩ := h ⟨fun _ => 0⟩ 15 (by decide)
  rw [show goString ((15 : ℕ) : ℤ) = some (b!"PT0.000000015S") by decide +kernel] at h1
  injection h1 with h1; subst h1
  rw [show parse ⟨fun _ => 0⟩ (b!"PT0.000000015S") = .ok 14 by decide +kernel] at h2
  injection h2 with h2; subst h2
  rw [show goString 14 = some (b!"PT0.000000014S") by decide +kernel] at h3
  revert h3; decide

/-- The largest duration rounds up to 2^63 ns and more, and is read back as a negative value. -/
theorem C06_max_wraps : ∃ s, goString 9223372036854775807 = some s ∧
    parse ⟨fun _ => 0⟩ s = .ok (-9223372036854551616) :=
  ⟨b!"PT2562047H47M16.855S", by decide +kernel, by decide +kernel⟩

/-- **C06 (partial)**: for every duration of at least half a millisecond, outside [0.9995 s, 1 s), whose
rounding fits in an `int64`: the parsed value is the rounded duration or one nanosecond less, and is
rendered by the same string. Missing: the excluded ranges, where the statement is false. -/
theorem C06_roundtrip_partial (a : Arch) (d : Nat) (h1 : 500000 ≤ d)
    (h2 : ¬ (999500000 ≤ d ∧ d < 1000000000)) (h3 : msNanos d < 2^63 - 1) :
    ∃ s v, goString (d : Int) = some s ∧ parse a s = .ok v ∧
      (v = msNanos d ∨ v = msNanos d - 1) ∧ goString v = some s := by
  have hd63 : d < 2^63 := by unfold msNanos at h3; omega
  have hI : IsI64 (d : Int) := by unfold IsI64; omega
  obtain ⟨H, M, S, sv, hf, he⟩ := goString_form (d : Int) hI (by omega)
  simp only [Int.natAbs_natCast] at hf
  set f : Fields := ⟨none, H, M, S, sv, .afterD⟩ with hfd
  have htext : goString (d : Int) = some f.text := by
    rw [he, if_neg (by omega)]
    simp [Fields.text, hfd, fld]
  have hdig : ∀ (n : Bytes) (k : Nat), Digits n → n.length ≤ k → k ≤ 7 → decVal n < 2^64 := by
    intro n k hn hl hk
    have := decVal_lt hn.2
    have h7 : 10^n.length ≤ 10^7 := Nat.pow_le_pow_right (by norm_num) (by omega)
    have : (10:ℕ)^7 < 2^64 := by norm_num
    omega
  have hsv60 : 0 ≤ sv ∧ sv < 61 := by
    have := hf.hS
    cases S with
    | none => simp only at this; rw [this]; norm_num
    | some n =>
      obtain ⟨ip, fs, rfl, h60, hdg, _, _, rfl⟩ := this
      have hlt := decVal_lt hdg
      have h10 : (0:ℚ) < 10 ^ fs.length := by positivity
      have hfr : (decVal fs : ℚ) / 10 ^ fs.length ≤ 1 := by
        rw [div_le_one h10]
        have : decVal fs ≤ 10 ^ fs.length := by omega
        exact_mod_cast this
      have hip : (ip:ℚ) ≤ 59 := by exact_mod_cast (by omega : ip ≤ 59)
      refine ⟨by positivity, by linarith⟩
  have hvalid : f.Valid := by
    refine ⟨by simp [hfd], ?_, ?_, ?_, by simp [hfd], Or.inr hf.any⟩
    · intro n hn; have := hf.hH n hn; exact ⟨this.1, hdig n 7 this.1 this.2 le_rfl⟩
    · intro n hn; have := hf.hM n hn; exact ⟨this.1, hdig n 2 this.1 this.2 (by omega)⟩
    · have := hf.hS
      show SecOK S sv
      cases S with
      | none => exact this
      | some n =>
        obtain ⟨ip, fs, rfl, h60, hdg, _, _, hval⟩ := this
        refine ⟨?_, ?_⟩
        · rw [hval]
          unfold dotFrac
          by_cases h : fs = []
          · subst h
            have := SecNumeral.int (digits ip) (digits_Digits ip)
            rw [digits_decVal] at this
            simpa [decVal_nil] using this
          · rw [if_neg h]
            have := SecNumeral.frac (digits ip) fs (digits_isDigit ip) hdg (by simp [h])
            rwa [digits_decVal] at this
        · have h2 : (61 : ℚ) < flOverflow := by decide +kernel
          rw [flOverflow_eq] at h2
          linarith [hsv60.2]
  have hval : f.nanos = ((msNanos d : ℕ) : ℤ) := by
    have := hf.val
    rw [if_neg (by omega)] at this
    have hT : (if d < 1000000000 then (((d + 500000) / 1000000 % 1000 : ℕ) : ℚ) / 1000
        else (((d + 500000) / 1000000 : ℕ) : ℚ) / 1000) = (((d + 500000) / 1000000 : ℕ) : ℚ) / 1000 := by
      by_cases h : d < 1000000000
      · rw [if_pos h]
        have : (d + 500000) / 1000000 % 1000 = (d + 500000) / 1000000 := by omega
        rw [this]
      · rw [if_neg h]
    rw [hT] at this
    unfold Fields.nanos msNanos
    simp only [hfd]
    generalize (d + 500000) / 1000000 = T at this
    have e0 : (fldVal (none : Option Bytes) : ℚ) = 0 := by simp [fldVal]
    rw [e0]
    push_cast
    linarith
  have hr := result_value a f hvalid (by simp only [hfd]; linarith [hsv60.2])
    (by rw [hval]; have : ((msNanos d : ℕ) : ℤ) < 2^63 - 1 := by omega
        have := (Int.cast_lt (R := ℚ)).mpr this
        norm_num at this ⊢; exact this) _ rfl
  set v := Fields.result a f with hv
  obtain ⟨hv0, _, _, hv2, hv3⟩ := hr
  have hv2 := hv2 _ hval
  refine ⟨f.text, v, htext, (parse_iff a _ _).mpr ⟨f, hvalid, rfl, rfl⟩, hv2, ?_⟩
  rw [← htext]
  -- the parsed value rounds to the same milliseconds
  have hone : msNanos d = 1000000000 → v = msNanos d := by
    intro h
    have hval' := hval
    rw [h] at hval'
    have : ∃ n : ℕ, f.sv = n := by
      have hk : f.sv = ((1 - 3600 * (fldVal H : ℤ) - 60 * (fldVal M : ℤ) : ℤ) : ℚ) := by
        unfold Fields.nanos at hval'
        simp only [hfd, fldVal] at hval' ⊢
        push_cast at hval' ⊢
        linarith
      have h0 : 0 ≤ (1 - 3600 * (fldVal H : ℤ) - 60 * (fldVal M : ℤ) : ℤ) := by
        have := hsv60.1
        have hs : f.sv = sv := rfl
        rw [← hs, hk] at this
        exact_mod_cast this
      refine ⟨(1 - 3600 * (fldVal H : ℤ) - 60 * (fldVal M : ℤ)).toNat, ?_⟩
      rw [hk]
      have : ((1 - 3600 * (fldVal H : ℤ) - 60 * (fldVal M : ℤ)).toNat : ℤ) = 1 - 3600 * (fldVal H : ℤ) - 60 * (fldVal M : ℤ) :=
        Int.toNat_of_nonneg h0
      conv_lhs => rw [← this]
      rfl
    obtain ⟨n, hn⟩ := this
    have := hv3 n hn
    rw [hval] at this
    exact_mod_cast this
  have hw : v = ((v.toNat : ℕ) : ℤ) := by omega
  rw [hw]
  unfold msNanos at *
  apply goString_congr <;> omega

-- 1.0005 s meets the hypotheses of C06.
example : 500000 ≤ 1000500000 ∧ ¬ (999500000 ≤ 1000500000 ∧ 1000500000 < 1000000000) ∧ msNanos 1000500000 < 2^63 - 1 := by decide
example : goString ((1000500000 : ℕ) : ℤ) = some (b!"PT1.001S") ∧
    parse ⟨fun _ => 0⟩ (b!"PT1.001S") = .ok 1000999999 ∧ goString 1000999999 = some (b!"PT1.001S") := by decide +kernel

/-- One write/read cycle of a duration attribute (`MarshalXMLAttr` duration.go:34-39 then
`UnmarshalXMLAttr` duration.go:41-48). -/
def cycle (a : Arch) (d : Int) : Option Int :=
  (goString d).bind fun s => match parse a s with
    | .ok v => some v
    | .error _ => none

/-- Any number of further cycles changes nothing: the value after one cycle is a fixed point. -/
theorem C06_cycles_partial (a : Arch) (d : Nat) (h1 : 500000 ≤ d)
    (h2 : ¬ (999500000 ≤ d ∧ d < 1000000000)) (h3 : msNanos d < 2^63 - 1) :
    ∃ v : Int, (v = msNanos d ∨ v = msNanos d - 1) ∧
      ∀ n : Nat, (fun x : Option Int => x.bind (cycle a))^[n+1] (some (d : Int)) = some v := by
  obtain ⟨s, v, hs, hp, hv, hs2⟩ := C06_roundtrip_partial a d h1 h2 h3
  refine ⟨v, hv, ?_⟩
  have c1 : cycle a d = some v := by simp [cycle, hs, hp]
  have c2 : cycle a v = some v := by simp [cycle, hs2, hp]
  intro n
  induction n with
  | zero => simp [c1]
  | succ n ih => rw [Function.iterate_succ_apply', ih]; simp [c2]

end Verif.Duration
