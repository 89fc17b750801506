import Verif.Basic
import Mathlib.Algebra.Order.Field.Rat
import Mathlib.Data.Rat.Floor
import Mathlib.Tactic.Linarith
import Mathlib.Tactic.Ring
import Mathlib.Tactic.FieldSimp
import Mathlib.Tactic.Positivity
import Mathlib.Tactic.NormNum

/-
IEEE-754 binary64 rounding of non-negative rationals, round to nearest, ties to even.

Trusted: Go's `float64` arithmetic and `strconv.ParseFloat` deliver the correctly rounded result, which is
what `fl` computes.  NaN and negative zero do not occur in the modelled code.
-/
namespace Verif

/-- `2^e` as a rational, for any integer exponent. -/
def pow2 : ℤ → ℚ
  | .ofNat n => ((2^n : ℕ) : ℚ)
  | .negSucc n => 1 / ((2^(n+1) : ℕ) : ℚ)

theorem pow2_eq (e : ℤ) : pow2 e = (2:ℚ)^e := by
  cases e with
  | ofNat n => simp [pow2]
  | negSucc n => simp [pow2, zpow_negSucc]

theorem pow2_pos (e : ℤ) : 0 < pow2 e := by rw [pow2_eq]; exact zpow_pos (by norm_num) e

theorem pow2_add (a b : ℤ) : pow2 (a + b) = pow2 a * pow2 b := by
  simp only [pow2_eq]; exact zpow_add₀ (by norm_num) a b

theorem pow2_mono {a b : ℤ} (h : a ≤ b) : pow2 a ≤ pow2 b := by
  simp only [pow2_eq]; exact zpow_le_zpow_right₀ (by norm_num) h

theorem pow2_lt_iff {a b : ℤ} : pow2 a < pow2 b ↔ a < b := by
  simp only [pow2_eq]; exact zpow_lt_zpow_iff_right₀ (by norm_num)

/-- Round a rational to the nearest integer, ties to even. -/
def rne (q : ℚ) : ℤ :=
  let f := ⌊q⌋
  if q - f < 1/2 then f
  else if 1/2 < q - f then f + 1
  else if f % 2 = 0 then f else f + 1

theorem rne_err (q : ℚ) : |(rne q : ℚ) - q| ≤ 1/2 := by
  have h1 := Int.floor_le q
  have h2 := Int.lt_floor_add_one q
  unfold rne
  simp only
  split_ifs <;> rw [abs_le] <;> push_cast <;> constructor <;> linarith

theorem rne_int (n : ℤ) : rne (n : ℚ) = n := by
  unfold rne; simp

theorem rne_nonneg {q : ℚ} (h : 0 ≤ q) : 0 ≤ rne q := by
  have : 0 ≤ ⌊q⌋ := Int.floor_nonneg.mpr h
  unfold rne; simp only; split_ifs <;> omega

theorem rne_mono {p q : ℚ} (h : p ≤ q) : rne p ≤ rne q := by
  have hp1 := Int.floor_le p
  have hp2 := Int.lt_floor_add_one p
  have hq1 := Int.floor_le q
  have hq2 := Int.lt_floor_add_one q
  have hf : ⌊p⌋ ≤ ⌊q⌋ := Int.floor_le_floor h
  rcases hf.lt_or_eq with hlt | heq
  · unfold rne; simp only
    split_ifs <;> omega
  · unfold rne; simp only [heq] at *
    split_ifs <;> first | omega | (exfalso; linarith)

/-- Binary exponent of a positive rational: `2^e ≤ q < 2^(e+1)`. -/
def binExp (q : ℚ) : ℤ :=
  let e := (Nat.log2 q.num.toNat : ℤ) - (Nat.log2 q.den : ℤ)
  if q < pow2 e then e - 1 else e

theorem binExp_spec {q : ℚ} (h : 0 < q) : pow2 (binExp q) ≤ q ∧ q < pow2 (binExp q + 1) := by
  have hn : 0 < q.num := Rat.num_pos.mpr h
  set n := q.num.toNat with hnd
  have hnum : q.num = (n : ℤ) := by omega
  have hn0 : n ≠ 0 := by omega
  have hd0 : q.den ≠ 0 := q.den_nz
  have hq : q = (n : ℚ) / (q.den : ℚ) := by
    conv_lhs => rw [← Rat.num_div_den q]
    rw [hnum]; simp
  have a1 : 2^(Nat.log2 n) ≤ n := Nat.log2_self_le hn0
  have a2 : n < 2^(Nat.log2 n + 1) := Nat.lt_log2_self
  have b1 : 2^(Nat.log2 q.den) ≤ q.den := Nat.log2_self_le hd0
  have b2 : q.den < 2^(Nat.log2 q.den + 1) := Nat.lt_log2_self
  have a1' : pow2 (Nat.log2 n) ≤ n := by
    have : ((2^(Nat.log2 n) : ℕ) : ℚ) ≤ n := by exact_mod_cast a1
    simpa [pow2] using this
  have a2' : (n:ℚ) < pow2 (Nat.log2 n) * 2 := by
    have : (n:ℚ) < ((2^(Nat.log2 n + 1) : ℕ) : ℚ) := by exact_mod_cast a2
    have e : ((2^(Nat.log2 n + 1) : ℕ) : ℚ) = pow2 (Nat.log2 n) * 2 := by simp [pow2, pow_succ]
    linarith
  have b1' : pow2 (Nat.log2 q.den) ≤ q.den := by
    have : ((2^(Nat.log2 q.den) : ℕ) : ℚ) ≤ q.den := by exact_mod_cast b1
    simpa [pow2] using this
  have b2' : (q.den:ℚ) < pow2 (Nat.log2 q.den) * 2 := by
    have : (q.den:ℚ) < ((2^(Nat.log2 q.den + 1) : ℕ) : ℚ) := by exact_mod_cast b2
    have e : ((2^(Nat.log2 q.den + 1) : ℕ) : ℚ) = pow2 (Nat.log2 q.den) * 2 := by simp [pow2, pow_succ]
    linarith
  have hdp : (0:ℚ) < q.den := by exact_mod_cast Nat.pos_of_ne_zero hd0
  set A := pow2 (Nat.log2 n)
  set B := pow2 (Nat.log2 q.den)
  have hA : 0 < A := pow2_pos _
  have hB : 0 < B := pow2_pos _
  have hsub : pow2 ((Nat.log2 n : ℤ) - (Nat.log2 q.den : ℤ)) = A / B := by
    have := pow2_add ((Nat.log2 n : ℤ) - (Nat.log2 q.den : ℤ)) (Nat.log2 q.den : ℤ)
    rw [sub_add_cancel] at this
    rw [eq_div_iff hB.ne']; exact this.symm
  have one : pow2 1 = 2 := by simp [pow2_eq]
  have upper : q < A / B * 2 := by
    rw [hq, div_lt_iff₀ hdp, div_mul_eq_mul_div, div_mul_eq_mul_div, lt_div_iff₀ hB]
    nlinarith
  have lower : A / B / 2 ≤ q := by
    rw [hq, div_div, div_le_div_iff₀ (by positivity) hdp]
    nlinarith
  unfold binExp
  simp only [← hnd]
  rw [hsub]
  split_ifs with hlt
  · refine ⟨?_, by rw [sub_add_cancel, hsub]; exact hlt⟩
    have := pow2_add ((Nat.log2 n : ℤ) - (Nat.log2 q.den : ℤ) - 1) 1
    rw [sub_add_cancel, hsub, one] at this
    linarith
  · refine ⟨by rw [hsub]; linarith, ?_⟩
    rw [pow2_add, hsub, one]; exact upper

theorem binExp_unique {q : ℚ} {e : ℤ} (h1 : pow2 e ≤ q) (h2 : q < pow2 (e+1)) : binExp q = e := by
  have hq : 0 < q := lt_of_lt_of_le (pow2_pos e) h1
  have ⟨a, b⟩ := binExp_spec hq
  have c : binExp q < e + 1 := pow2_lt_iff.mp (lt_of_le_of_lt a h2)
  have d : e < binExp q + 1 := pow2_lt_iff.mp (lt_of_le_of_lt h1 b)
  omega

theorem binExp_mono {p q : ℚ} (hp : 0 < p) (h : p ≤ q) : binExp p ≤ binExp q := by
  have ⟨a, _⟩ := binExp_spec hp
  have ⟨_, d⟩ := binExp_spec (lt_of_lt_of_le hp h)
  have := pow2_lt_iff.mp (lt_of_le_of_lt (le_trans a h) d)
  omega

/-- Exponent of the unit in the last place used for `q` (gradual underflow below `2^-1022`). -/
def ulpExp (q : ℚ) : ℤ := max (binExp q - 52) (-1074)

/-- Rounding a non-negative rational to binary64, ignoring overflow. -/
def fl (q : ℚ) : ℚ := if q ≤ 0 then 0 else (rne (q / pow2 (ulpExp q)) : ℚ) * pow2 (ulpExp q)

/-- Smallest value that rounds to infinity: halfway between the largest finite number and `2^1024`. -/
def flOverflow : ℚ := pow2 1024 - pow2 970

/-- Rounding to binary64: `none` is `+Inf`. -/
def flo (q : ℚ) : Option ℚ := if flOverflow ≤ q then none else some (fl q)

theorem fl_nonneg (q : ℚ) : 0 ≤ fl q := by
  unfold fl
  split_ifs with h
  · exact le_refl _
  · have hp := pow2_pos (ulpExp q)
    have : 0 ≤ rne (q / pow2 (ulpExp q)) := rne_nonneg (by push Not at h; positivity)
    have : (0:ℚ) ≤ (rne (q / pow2 (ulpExp q)) : ℚ) := by exact_mod_cast this
    positivity

/-- The absolute rounding error is at most half a unit in the last place. -/
theorem fl_err {q : ℚ} (h : 0 < q) : |fl q - q| ≤ pow2 (ulpExp q) / 2 := by
  have hp := pow2_pos (ulpExp q)
  have e := rne_err (q / pow2 (ulpExp q))
  unfold fl
  rw [if_neg (by linarith)]
  rw [abs_le] at *
  have hq : q = q / pow2 (ulpExp q) * pow2 (ulpExp q) := by field_simp
  generalize q / pow2 (ulpExp q) = x at *
  generalize pow2 (ulpExp q) = u at *
  rw [hq]
  constructor <;> nlinarith [e.1, e.2]

/-- In the normal range the relative error is at most `2^-53`. -/
theorem fl_rel {q : ℚ} (h : pow2 (-1022) ≤ q) : |fl q - q| ≤ q * pow2 (-53) := by
  have hq : 0 < q := lt_of_lt_of_le (pow2_pos _) h
  have ⟨a, b⟩ := binExp_spec hq
  have he : -1022 ≤ binExp q := by
    have := pow2_lt_iff.mp (lt_of_le_of_lt h b); omega
  have hu : ulpExp q = binExp q - 52 := by unfold ulpExp; omega
  have e := fl_err hq
  rw [hu] at e
  have s : pow2 (binExp q - 52) / 2 = pow2 (binExp q) * pow2 (-53) := by
    rw [← pow2_add, show binExp q - 52 = (binExp q + -53) + 1 by ring, pow2_add _ 1]
    have one : pow2 1 = 2 := by simp [pow2_eq]
    rw [one]; ring
  rw [s] at e
  have := pow2_pos (-53)
  nlinarith

/-- `q` is a finite non-negative binary64 number (`m * 2^k`, 53-bit significand). -/
def IsF64 (q : ℚ) : Prop := ∃ (m : ℕ) (k : ℤ), m < 2^53 ∧ -1074 ≤ k ∧ q = m * pow2 k

/-- Representable numbers are not changed by rounding. -/
theorem fl_exact {q : ℚ} (h : IsF64 q) : fl q = q := by
  obtain ⟨m, k, hm, hk, rfl⟩ := h
  rcases Nat.eq_zero_or_pos m with rfl | hm0
  · simp [fl]
  have hk2 := pow2_pos k
  have hmq : (0:ℚ) < m := by exact_mod_cast hm0
  have hq : (0:ℚ) < m * pow2 k := by positivity
  have ⟨a, b⟩ := binExp_spec hq
  set E := binExp (m * pow2 k)
  have : E < 53 + k := by
    apply pow2_lt_iff.mp
    refine lt_of_le_of_lt a ?_
    rw [pow2_add]
    have : (m:ℚ) < pow2 53 := by
      have : (m:ℚ) < ((2^53 : ℕ) : ℚ) := by exact_mod_cast hm
      simpa [pow2] using this
    nlinarith
  have hle : ulpExp (m * pow2 k) ≤ k := by unfold ulpExp; omega
  unfold fl
  rw [if_neg (by linarith)]
  set U := ulpExp (m * pow2 k)
  have hU := pow2_pos U
  have hint : (m:ℚ) * pow2 k / pow2 U = (((m * 2^(k - U).toNat : ℕ) : ℤ) : ℚ) := by
    have : pow2 k = pow2 (k - U) * pow2 U := by rw [← pow2_add]; congr 1; ring
    rw [this]
    have hh : pow2 (k - U) = ((2^(k-U).toNat : ℕ) : ℚ) := by
      have : k - U = ((k-U).toNat : ℤ) := by omega
      conv_lhs => rw [this]
      rfl
    rw [hh]; push_cast; field_simp
  rw [hint, rne_int, ← hint]
  field_simp

theorem isF64_nat {n : ℕ} (h : n < 2^53) : IsF64 n := ⟨n, 0, h, by omega, by simp [pow2]⟩

theorem fl_nat {n : ℕ} (h : n < 2^53) : fl n = n := fl_exact (isF64_nat h)

/-- Rounding is monotone. -/
theorem fl_mono {p q : ℚ} (h : p ≤ q) : fl p ≤ fl q := by
  by_cases hp : p ≤ 0
  · have : fl p = 0 := by simp [fl, hp]
    rw [this]; exact fl_nonneg q
  push Not at hp
  have hq : 0 < q := lt_of_lt_of_le hp h
  have hm : ulpExp p ≤ ulpExp q := by
    have := binExp_mono hp h; unfold ulpExp; omega
  rcases hm.lt_or_eq with hlt | heq
  · -- different binades: the power of two `2^(binExp q)` separates the results
    have hbq : ulpExp q = binExp q - 52 := by unfold ulpExp at *; omega
    have hbp : binExp p < binExp q := by unfold ulpExp at *; omega
    have ⟨_, p2⟩ := binExp_spec hp
    have ⟨q1, _⟩ := binExp_spec hq
    set S := pow2 (binExp q)
    have hSU : ∀ u : ℤ, u ≤ binExp q → ∃ n : ℤ, S / pow2 u = n := by
      intro u hu
      refine ⟨((2^(binExp q - u).toNat : ℕ) : ℤ), ?_⟩
      have h1 : S = pow2 (binExp q - u) * pow2 u := by rw [← pow2_add, sub_add_cancel]
      have h2 : pow2 (binExp q - u) = ((2^(binExp q-u).toNat : ℕ) : ℚ) := by
        have : binExp q - u = ((binExp q-u).toNat : ℤ) := by omega
        conv_lhs => rw [this]
        rfl
      have := pow2_pos u
      rw [h1, h2]; push_cast; field_simp
    have lo : fl p ≤ S := by
      unfold fl; rw [if_neg (by linarith)]
      have hu := pow2_pos (ulpExp p)
      obtain ⟨n, hn⟩ := hSU (ulpExp p) (by omega)
      have hle : p / pow2 (ulpExp p) ≤ S / pow2 (ulpExp p) := by
        apply div_le_div_of_nonneg_right _ hu.le
        exact le_trans p2.le (pow2_mono (by omega))
      have := rne_mono hle
      rw [hn, rne_int] at this
      have : (rne (p / pow2 (ulpExp p)) : ℚ) ≤ S / pow2 (ulpExp p) := by rw [hn]; exact_mod_cast this
      calc _ ≤ S / pow2 (ulpExp p) * pow2 (ulpExp p) := by nlinarith
        _ = S := by field_simp
    have hi : S ≤ fl q := by
      unfold fl; rw [if_neg (by linarith)]
      have hu := pow2_pos (ulpExp q)
      obtain ⟨n, hn⟩ := hSU (ulpExp q) (by omega)
      have hle : S / pow2 (ulpExp q) ≤ q / pow2 (ulpExp q) :=
        div_le_div_of_nonneg_right q1 hu.le
      have := rne_mono hle
      rw [hn, rne_int] at this
      have : S / pow2 (ulpExp q) ≤ (rne (q / pow2 (ulpExp q)) : ℚ) := by rw [hn]; exact_mod_cast this
      calc S = S / pow2 (ulpExp q) * pow2 (ulpExp q) := by field_simp
        _ ≤ _ := by nlinarith
    linarith
  · unfold fl
    rw [if_neg (by linarith), if_neg (by linarith), heq]
    have hu := pow2_pos (ulpExp q)
    have : rne (p / pow2 (ulpExp q)) ≤ rne (q / pow2 (ulpExp q)) :=
      rne_mono (div_le_div_of_nonneg_right h hu.le)
    have : (rne (p / pow2 (ulpExp q)) : ℚ) ≤ rne (q / pow2 (ulpExp q)) := by exact_mod_cast this
    nlinarith

-- Checks against well-known values (tests of the definition).
example : fl (1/10) = 3602879701896397 / 36028797018963968 := by decide +kernel
example : fl (2^53 + 1) = 2^53 := by decide +kernel

/-- Rounding of signed rationals; the format is symmetric. -/
def flS (q : ℚ) : ℚ := if q < 0 then - fl (-q) else fl q

theorem flS_neg (q : ℚ) : flS (-q) = - flS q := by
  unfold flS
  rcases lt_trichotomy q 0 with h | h | h
  · rw [if_pos h, if_neg (by linarith)]; simp
  · subst h; simp [fl]
  · rw [if_pos (by linarith : -q < 0), if_neg (by linarith : ¬ q < 0)]; simp

theorem flS_of_nonneg {q : ℚ} (h : 0 ≤ q) : flS q = fl q := if_neg (by linarith)

end Verif
