import Verif.DurationProps
import Verif.KRfl

/-!
C06 without exceptions: what any duration becomes when it is written and read back.
-/
namespace Verif.Duration
open Verif Verif.DurationSpec

/-- What the text written for a non-negative duration denotes, in nanoseconds: the duration itself below half a millisecond,
otherwise the duration rounded to milliseconds; but zero from 0.9995 s to 1 s. -/
def writtenNanos (d : Nat) : Nat :=
  if d < 500000 then d else if 999500000 ≤ d ∧ d < 1000000000 then 0 else msNanos d

theorem cycle_value (a : Arch) (d : Nat) (h0 : 0 < d) (h3 : writtenNanos d < 2^63 - 1) :
    ∃ s v, goString (d : Int) = some s ∧ parse a s = .ok v ∧
      (v = writtenNanos d ∨ v = writtenNanos d - 1) ∧ 0 ≤ v ∧ (writtenNanos d % 1000000000 = 0 → v = writtenNanos d) := by
  have hd63 : d < 2^63 := by
    unfold writtenNanos msNanos at h3
    split_ifs at h3 <;> omega
  have hI : IsI64 (d : Int) := by unfold IsI64; omega
  obtain ⟨H, M, S, sv, hf, he⟩ := goString_form (d : Int) hI (by omega)
  simp only [Int.natAbs_natCast] at hf
  set f : Fields := ⟨none, H, M, S, sv, .afterD⟩ with hfd
  have htext : goString (d : Int) = some f.text := by
    rw [he, if_neg (by omega)]
    simp [Fields.text, hfd, fld]
  have hdig : ∀ (n : Bytes) (k : Nat), Digits n → n.length ≤ k → k ≤ 7 → decVal n < 2^64 := by
    intro n k hn hl hk
    have := decVal_lt hn.2
    have h7 : 10^n.length ≤ 10^7 := Nat.pow_le_pow_right (by norm_num) (by omega)
    have : (10:ℕ)^7 < 2^64 := by norm_num
    omega
  have hsv60 : 0 ≤ sv ∧ sv < 61 := by
    have := hf.hS
    cases S with
    | none => simp only at this; rw [this]; norm_num
    | some n =>
      obtain ⟨ip, fs, rfl, h60, hdg, _, _, rfl⟩ := this
      have hlt := decVal_lt hdg
      have h10 : (0:ℚ) < 10 ^ fs.length := by positivity
      have hfr : (decVal fs : ℚ) / 10 ^ fs.length ≤ 1 := by
        rw [div_le_one h10]
        have : decVal fs ≤ 10 ^ fs.length := by omega
        exact_mod_cast this
      have hip : (ip:ℚ) ≤ 59 := by exact_mod_cast (by omega : ip ≤ 59)
      refine ⟨by positivity, by linarith⟩
  have hvalid : f.Valid := by
    refine ⟨by simp [hfd], ?_, ?_, ?_, by simp [hfd], Or.inr hf.any⟩
    · intro n hn; have := hf.hH n hn; exact ⟨this.1, hdig n 7 this.1 this.2 le_rfl⟩
    · intro n hn; have := hf.hM n hn; exact ⟨this.1, hdig n 2 this.1 this.2 (by omega)⟩
    · have := hf.hS
      show SecOK S sv
      cases S with
      | none => exact this
      | some n =>
        obtain ⟨ip, fs, rfl, h60, hdg, _, _, hval⟩ := this
        refine ⟨?_, ?_⟩
        · rw [hval]
          unfold dotFrac
          by_cases h : fs = []
          · subst h
            have := SecNumeral.int (digits ip) (digits_Digits ip)
            rw [digits_decVal] at this
            simpa [decVal_nil] using this
          · rw [if_neg h]
            have := SecNumeral.frac (digits ip) fs (digits_isDigit ip) hdg (by simp [h])
            rwa [digits_decVal] at this
        · have h2 : (61 : ℚ) < flOverflow := by decide +kernel
          rw [flOverflow_eq] at h2
          linarith [hsv60.2]
  have hval : f.nanos = ((writtenNanos d : ℕ) : ℤ) := by
    have := hf.val
    unfold Fields.nanos
    simp only [hfd]
    have e0 : (fldVal (none : Option Bytes) : ℚ) = 0 := by simp [fldVal]
    rw [e0]
    unfold writtenNanos msNanos
    by_cases h1 : d < 500000
    · rw [if_pos h1] at this ⊢
      push_cast
      linarith
    · rw [if_neg h1] at this ⊢
      by_cases h2 : d < 1000000000
      · rw [if_pos h2] at this
        by_cases h4 : 999500000 ≤ d
        · rw [if_pos ⟨h4, h2⟩]
          have : (d + 500000) / 1000000 % 1000 = 0 := by omega
          simp_all
          linarith
        · rw [if_neg (by omega)]
          have e1 : (d + 500000) / 1000000 % 1000 = (d + 500000) / 1000000 := by omega
          rw [e1] at this
          generalize (d + 500000) / 1000000 = T at this
          push_cast
          linarith
      · rw [if_neg h2] at this
        rw [if_neg (by omega)]
        generalize (d + 500000) / 1000000 = T at this
        push_cast
        linarith
  have hr := result_value a f hvalid (by simp only [hfd]; linarith [hsv60.2])
    (by rw [hval]; have : ((writtenNanos d : ℕ) : ℤ) < 2^63 - 1 := by omega
        have := (Int.cast_lt (R := ℚ)).mpr this
        norm_num at this ⊢; exact this) _ rfl
  obtain ⟨hv0, _, _, hv2, hv3⟩ := hr
  refine ⟨f.text, _, htext, (parse_iff a _ _).mpr ⟨f, hvalid, rfl, rfl⟩, hv2 _ hval, hv0, ?_⟩
  intro h
  obtain ⟨k, hk⟩ : ∃ k, writtenNanos d = 1000000000 * k := ⟨_, (Nat.mul_div_cancel' (Nat.dvd_of_mod_eq_zero h)).symm⟩
  have hn : ∃ n : ℕ, f.sv = n := by
    have hk : f.sv = ((k - 3600 * (fldVal H : ℤ) - 60 * (fldVal M : ℤ) : ℤ) : ℚ) := by
      have hval' := hval
      rw [hk] at hval'
      unfold Fields.nanos at hval'
      simp only [hfd, fldVal] at hval' ⊢
      push_cast at hval' ⊢
      linarith
    have h0 : 0 ≤ (k - 3600 * (fldVal H : ℤ) - 60 * (fldVal M : ℤ) : ℤ) := by
      have := hsv60.1
      have hs : f.sv = sv := rfl
      rw [← hs, hk] at this
      exact_mod_cast this
    refine ⟨(k - 3600 * (fldVal H : ℤ) - 60 * (fldVal M : ℤ)).toNat, ?_⟩
    rw [hk]
    have : ((k - 3600 * (fldVal H : ℤ) - 60 * (fldVal M : ℤ)).toNat : ℤ) = k - 3600 * (fldVal H : ℤ) - 60 * (fldVal M : ℤ) :=
      Int.toNat_of_nonneg h0
    conv_lhs => rw [← this]
    rfl
  obtain ⟨n, hn⟩ := hn
  have := hv3 n hn
  rw [hval] at this
  exact_mod_cast this

theorem goString_neg (a : Arch) (d : Int) (hd : IsI64 d) (h : d < 0) :
    ∃ s, goString d = some s ∧ parse a s = .error .negative := by
  obtain ⟨H, M, S, sv, hf, he⟩ := goString_form d hd (by omega)
  refine ⟨_, he, ?_⟩
  rw [if_pos h]
  unfold parse
  rw [if_neg (by simp)]
  simp

theorem goString_top (d : Nat) (h1 : 9223372036854500000 ≤ d) (h2 : d < 2^63) :
    goString (d : Int) = some (b!"PT2562047H47M16.855S") := by
  rw [goString_congr (e := 9223372036854775807) (by omega) (by omega) h2 (by omega) (by omega) (by omega)]
  decide +kernel

/-- **C06 for every duration.**  Writing and reading back gives: an error for a negative duration; what the text denotes, or one
nanosecond less unless that is a number of seconds; a negative duration for the last 275808 nanoseconds of the range. -/
theorem C06_cycle (a : Arch) (d : Int) (hd : IsI64 d) :
    (d < 0 → ∃ s, goString d = some s ∧ parse a s = .error .negative) ∧
    (0 ≤ d → d < 9223372036854500000 → ∃ v, cycle a d = some v ∧ 0 ≤ v ∧
      (v = writtenNanos d.toNat ∨ v = writtenNanos d.toNat - 1) ∧
      (writtenNanos d.toNat % 1000000000 = 0 → v = writtenNanos d.toNat)) ∧
    (9223372036854500000 ≤ d → cycle a d = some (-9223372036854551616)) := by
  refine ⟨goString_neg a d hd, ?_, ?_⟩
  · intro h1 h2
    rcases (by omega : d = 0 ∨ 0 < d) with rfl | h0
    · refine ⟨0, ?_, le_rfl, by decide, by decide⟩
      have h1 : goString 0 = some (b!"PT0S") := by decide +kernel
      have h2 : parse a (b!"PT0S") = .ok 0 := by
        krfl
      simp [cycle, h1, h2]
    · obtain ⟨n, rfl⟩ := Int.eq_ofNat_of_zero_le h1
      obtain ⟨s, v, h3, h4, h5, h6, h7⟩ := cycle_value a n (by omega) (by unfold writtenNanos msNanos; split_ifs <;> omega)
      exact ⟨v, by simp [cycle, h3, h4], h6, h5, h7⟩
  · intro h
    obtain ⟨n, rfl⟩ := Int.eq_ofNat_of_zero_le (by omega : 0 ≤ d)
    have h1 := goString_top n (by omega) (by unfold IsI64 at hd; omega)
    have h2 : parse a (b!"PT2562047H47M16.855S") = .ok (-9223372036854551616) := by
      krfl
    simp [cycle, h1, h2]

/-- `n` cycles of writing and reading. -/
def cycles (a : Arch) (n : Nat) (d : Int) : Option Int := (fun x : Option Int => x.bind (cycle a))^[n] (some d)

theorem cycles_succ (a : Arch) (n : Nat) (d v : Int) (h : cycle a d = some v) : cycles a (n + 1) d = cycles a n v := by
  unfold cycles
  rw [Function.iterate_succ_apply]
  simp [h]

theorem cycles_fixed (a : Arch) (v : Int) (h : cycle a v = some v) (n : Nat) : cycles a n v = some v := by
  induction n with
  | zero => rfl
  | succ n ih => rw [cycles_succ a n v v h, ih]

theorem cycle_zero (a : Arch) : cycle a 0 = some 0 := by
  obtain ⟨v, h1, h2, h3, h4⟩ := (C06_cycle a 0 (by decide)).2.1 le_rfl (by omega)
  rw [h1, h4 rfl]
  rfl

theorem settles_small (a : Arch) (d : Nat) (h : d < 500000) :
    ∃ (k : Nat) (w : Int), 0 ≤ w ∧ w ≤ d ∧ d ≤ w + k ∧ ∀ n, cycles a (n + k) d = some w := by
  induction d using Nat.strong_induction_on with
  | _ d ih =>
    obtain ⟨v, h1, h2, h3, h4⟩ := (C06_cycle a d (by unfold IsI64; omega)).2.1 (by omega) (by omega)
    have hw : writtenNanos (d : Int).toNat = d := by
      rw [Int.toNat_natCast]; unfold writtenNanos; rw [if_pos h]
    rw [hw] at h3
    rcases h3 with rfl | rfl
    · exact ⟨0, d, by omega, le_rfl, by omega, fun n => cycles_fixed a _ h1 n⟩
    · have hd : ((d : Int) - 1) = ((d - 1 : ℕ) : Int) := by omega
      obtain ⟨k, w, g0, g1, g2, g3⟩ := ih (d - 1) (by omega) (by omega)
      refine ⟨k + 1, w, g0, by omega, by omega, fun n => ?_⟩
      rw [← Nat.add_assoc, cycles_succ a _ _ _ h1, hd, g3]

/-- **C06, no drift.**  Writing and reading again and again, the value comes to rest: after one cycle from half a millisecond on,
and below that after at most as many cycles as nanoseconds are lost. -/
theorem C06_settles (a : Arch) (d : Nat) (h : d < 9223372036854500000) :
    ∃ (k : Nat) (w : Int), 0 ≤ w ∧ w ≤ writtenNanos d ∧ writtenNanos d ≤ w + k ∧ (500000 ≤ d → k = 1) ∧
      ∀ n, cycles a (n + k) d = some w := by
  by_cases h1 : d < 500000
  · obtain ⟨k, w, g0, g1, g2, g3⟩ := settles_small a d h1
    have hw : writtenNanos d = d := by unfold writtenNanos; rw [if_pos h1]
    exact ⟨k, w, g0, by omega, by omega, by omega, g3⟩
  · by_cases h2 : 999500000 ≤ d ∧ d < 1000000000
    · have hw : writtenNanos d = 0 := by unfold writtenNanos; rw [if_neg h1, if_pos h2]
      obtain ⟨v, g1, g2, g3, g4⟩ := (C06_cycle a d (by unfold IsI64; omega)).2.1 (by omega) (by omega)
      rw [Int.toNat_natCast, hw] at g4
      refine ⟨1, 0, le_rfl, by omega, by omega, by omega, fun n => ?_⟩
      rw [cycles_succ a n _ _ g1, g4 rfl]
      exact cycles_fixed a _ (cycle_zero a) n
    · have hw : writtenNanos d = msNanos d := by unfold writtenNanos; rw [if_neg h1, if_neg h2]
      obtain ⟨w, g1, g2⟩ := C06_cycles_partial a d (by omega) h2 (by unfold msNanos; omega)
      refine ⟨1, w, ?_, by omega, by omega, by omega, fun n => g2 n⟩
      unfold msNanos at g1; omega

/-- 1915 ns becomes 1914 ns, then 1913 ns, and stays; 15 ns becomes 14 ns; 0.9997 s becomes 0; 1.0005 s becomes 1.000999999 s;
7 seconds stay. -/
example : (let a : Arch := ⟨fun _ => 0⟩
    cycle a 1915 = some 1914 ∧ cycle a 1914 = some 1913 ∧ cycle a 1913 = some 1913 ∧ cycle a 15 = some 14 ∧ cycle a 14 = some 14 ∧
    cycle a 999700000 = some 0 ∧ cycle a 1000500000 = some 1000999999 ∧ cycle a 7000000000 = some 7000000000) := by
  decide +kernel

theorem xsd_neg {s : Bytes} {v : ℚ} (h : XsdDuration (ch%'-' :: s) v) : XsdDuration s (-v) := by
  generalize hs : ch%'-' :: s = t at h
  cases h with
  | mk neg D H M S sv hD hH hM hS hany =>
    cases neg with
    | false =>
      have := (List.cons.inj hs).1
      exact absurd this (by decide)
    | true =>
      have h2 : s = _ := (List.cons.inj hs).2
      have := XsdDuration.mk false D H M S sv hD hH hM hS hany
      rw [h2]
      simpa using this

/-- **C01, exactly.**  A duration is written as an `xs:duration` of the right value if and only if its magnitude is not from
0.9995 s to 1 s. -/
theorem C01_iff (d : Int) (hd : IsI64 d) :
    (∃ s, goString d = some s ∧ XsdDuration s (if d.natAbs < 500000 then (d : ℚ) / 1000000000 else roundMs d)) ↔
      ¬ (999500000 ≤ d.natAbs ∧ d.natAbs < 1000000000) := by
  refine ⟨?_, C01_string_denotes_partial d hd⟩
  rintro ⟨s, h1, h2⟩ hx
  rw [C01_exceptional_range d hx] at h1
  injection h1 with h1
  subst h1
  rw [if_neg (by omega : ¬ d.natAbs < 500000)] at h2
  have hT : (d.natAbs + 500000) / 1000000 = 1000 := by omega
  unfold roundMs at h2
  rw [hT] at h2
  by_cases hn : d < 0
  · simp only [if_pos hn] at h2
    have := xsd_PT0S (xsd_neg h2)
    norm_num at this
  · simp only [if_neg hn] at h2
    have := xsd_PT0S h2
    norm_num at this

example : IsI64 999499999 ∧ ¬ (999500000 ≤ (999499999 : Int).natAbs ∧ (999499999 : Int).natAbs < 1000000000) ∧
    IsI64 (-999500000) ∧ (999500000 ≤ (-999500000 : Int).natAbs ∧ (-999500000 : Int).natAbs < 1000000000) := by decide

end Verif.Duration
