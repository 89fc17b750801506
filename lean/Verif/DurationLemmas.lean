import Verif.Duration

/-
Helper lemmas about the duration model.
-/
namespace Verif.Duration

open Verif

/-! ### Rounding to milliseconds -/

theorem fl_micro : fl (1/10^6) = 4722366482869645/4722366482869645213696 := by decide +kernel

set_option maxRecDepth 10000 in
/-- The exact ties, by kernel evaluation of the whole table of 1000 of them. -/
theorem msOf_ties_table : ∀ k < 1000, goRound (fl (((k * 1000000 + 500000 : ℕ) : ℚ) *
    (4722366482869645/4722366482869645213696))) = (k+1 : ℕ) := by decide +kernel

theorem msOf_ties (k : Nat) (h : k < 1000) : msOf (k * 1000000 + 500000) = k + 1 := by
  unfold msOf
  rw [fl_micro, fl_nat (by omega), msOf_ties_table k h]; simp

theorem fl_micro_err : |fl (1/10^6) - 1/1000000| ≤ 1 / 100000000000000000000 := by decide +kernel

theorem pow2_53 : pow2 (-53) ≤ 1/1000000000000000 := by decide +kernel

theorem pow2_1022 : pow2 (-1022) ≤ 1/10000000 := by decide +kernel

theorem msOf_aux {ns : Nat} {c y p lo : ℚ} (h : ns < 1000000000) (hpos : 0 < ns)
    (hr : (ns + 500000) % 1000000 ≠ 0) (hc : |c - 1/1000000| ≤ 1/100000000000000000000)
    (hp0 : 0 < p) (hp : p ≤ 1/1000000000000000) (hlo : lo ≤ 1/10000000)
    (hrel : lo ≤ ns * c → |y - ns * c| ≤ ns * c * p) :
    goRound y = ((ns + 500000) / 1000000 : ℕ) := by
  have hnq : (1:ℚ) ≤ ns := by exact_mod_cast hpos
  have hnq2 : (ns:ℚ) < 1000000000 := by exact_mod_cast h
  rw [abs_le] at hc
  have hclo : 1/10000000 ≤ c := by linarith [hc.1]
  have hx : lo ≤ ns * c := by nlinarith
  have hrel := hrel hx
  rw [abs_le] at hrel
  set m := (ns + 500000) / 1000000 with hm
  set r := (ns + 500000) % 1000000 with hrd
  have hdiv : ns + 500000 = 1000000 * m + r := by omega
  have hdq : (ns:ℚ) + 500000 = 1000000 * m + r := by exact_mod_cast hdiv
  have hr1 : (1:ℚ) ≤ r := by exact_mod_cast Nat.one_le_iff_ne_zero.mpr hr
  have hr2 : (r:ℚ) ≤ 999999 := by
    have : r ≤ 999999 := by omega
    exact_mod_cast this
  have hncl : (ns:ℚ) * c ≤ ns / 1000000 + 1/100000000000 := by
    have := mul_le_mul_of_nonneg_left hc.2 (by linarith : (0:ℚ) ≤ ns)
    linarith
  have hncu : (ns:ℚ) / 1000000 - 1/100000000000 ≤ ns * c := by
    have := mul_le_mul_of_nonneg_left hc.1 (by linarith : (0:ℚ) ≤ ns)
    linarith
  have hbig : (ns:ℚ) * c ≤ 1001 := by linarith
  have hnn : 0 ≤ (ns:ℚ) * c := mul_nonneg (by linarith) (by linarith)
  have he : (ns:ℚ) * c * p ≤ 1/100000000000 := by
    have : (ns:ℚ) * c * p ≤ 1001 * (1/1000000000000000) := mul_le_mul hbig hp hp0.le (by norm_num)
    linarith
  unfold goRound
  rw [Int.floor_eq_iff]
  push_cast
  constructor <;> linarith [hrel.1, hrel.2]

theorem msOf_eq {ns : Nat} (h : ns < 1000000000) : msOf ns = (ns + 500000) / 1000000 := by
  rcases Nat.eq_zero_or_pos ns with rfl | hpos
  · decide +kernel
  by_cases hr : (ns + 500000) % 1000000 = 0
  · obtain ⟨k, hk⟩ : ∃ k, ns = k * 1000000 + 500000 := ⟨ns / 1000000, by omega⟩
    subst hk
    rw [msOf_ties k (by omega)]
    omega
  · unfold msOf
    rw [fl_nat (by omega), msOf_aux h hpos hr fl_micro_err (pow2_pos (-53)) pow2_53 pow2_1022 fl_rel,
      Int.toNat_natCast]

/-! ### Digits -/

/-- One decimal digit as an ASCII byte. -/
def dg (n : Nat) : UInt8 := UInt8.ofNat n + 48

theorem dg_toNat {n : Nat} (h : n < 10) : (dg n).toNat = n + 48 := by
  unfold dg
  rw [UInt8.toNat_add, UInt8.toNat_ofNat']
  simp; omega

theorem isDigit_dg {n : Nat} (h : n < 10) : isDigit (dg n) = true := by
  unfold isDigit; rw [dg_toNat h]; simp; omega

theorem decVal_foldl (a : Nat) (ds : Bytes) :
    ds.foldl (fun a d => 10 * a + (d.toNat - 48)) a = a * 10^ds.length + decVal ds := by
  induction ds generalizing a with
  | nil => simp [decVal]
  | cons d ds ih =>
    simp only [List.foldl_cons, List.length_cons, decVal]
    rw [ih, ih (10 * 0 + (d.toNat - 48))]
    ring

theorem decVal_append (a b : Bytes) : decVal (a ++ b) = decVal a * 10^b.length + decVal b := by
  conv_lhs => unfold decVal
  rw [List.foldl_append, decVal_foldl]; rfl

theorem decVal_cons (d : UInt8) (b : Bytes) : decVal (d :: b) = (d.toNat - 48) * 10^b.length + decVal b := by
  have := decVal_append [d] b
  simpa [decVal] using this

theorem decVal_lt {ds : Bytes} (h : ∀ b ∈ ds, isDigit b = true) : decVal ds < 10^ds.length := by
  induction ds with
  | nil => simp [decVal]
  | cons d ds ih =>
    rw [decVal_cons, List.length_cons, pow_succ]
    have h1 := ih (fun b hb => h b (List.mem_cons_of_mem _ hb))
    have h2 := h d List.mem_cons_self
    simp only [isDigit, Bool.and_eq_true, decide_eq_true_eq] at h2
    have : d.toNat - 48 ≤ 9 := by omega
    nlinarith

/-- Decimal digits of `v`, without the `v = 0` case (closed form of the loop of `fmtInt`). -/
def digitsLoop : Nat → Nat → Bytes → Bytes
  | 0, _, acc => acc
  | k+1, v, acc => if v = 0 then acc else digitsLoop k (v/10) (dg (v % 10) :: acc)

/-- Decimal rendering of `v` (closed form of `fmtInt`). -/
def digits (v : Nat) : Bytes := if v = 0 then [48] else digitsLoop v v []

theorem digitsLoop_append (k v : Nat) (acc : Bytes) : digitsLoop k v acc = digitsLoop k v [] ++ acc := by
  induction k generalizing v acc with
  | zero => simp [digitsLoop]
  | succ k ih =>
    unfold digitsLoop
    split
    · simp
    · rw [ih (v/10) (dg (v%10) :: acc), ih (v/10) [dg (v%10)]]; simp

theorem digitsLoop_spec (k v : Nat) (h : v ≤ k) :
    decVal (digitsLoop k v []) = v ∧ (∀ b ∈ digitsLoop k v [], isDigit b = true) ∧
    (∀ n, v < 10^n → (digitsLoop k v []).length ≤ n) := by
  induction k generalizing v with
  | zero =>
    have : v = 0 := by omega
    subst this; simp [digitsLoop, decVal]
  | succ k ih =>
    unfold digitsLoop
    split
    · next h0 => subst h0; simp [decVal]
    · next h0 =>
      rw [digitsLoop_append]
      have ⟨a, b, c⟩ := ih (v/10) (by omega)
      refine ⟨?_, ?_, ?_⟩
      · rw [decVal_append, a]
        simp only [decVal, List.foldl_cons, List.foldl_nil, List.length_cons, List.length_nil]
        rw [dg_toNat (by omega)]; omega
      · intro x hx
        rcases List.mem_append.mp hx with hx | hx
        · exact b x hx
        · simp at hx; rw [hx]; exact isDigit_dg (by omega)
      · intro n hn
        cases n with
        | zero => simp at hn; omega
        | succ n =>
          have := c n (by rw [pow_succ] at hn; omega)
          simp; exact this

theorem digits_decVal (v : Nat) : decVal (digits v) = v := by
  unfold digits; split
  · next h => subst h; simp [decVal]
  · exact (digitsLoop_spec v v le_rfl).1

theorem digits_isDigit (v : Nat) : ∀ b ∈ digits v, isDigit b = true := by
  unfold digits; split
  · simp; decide
  · exact (digitsLoop_spec v v le_rfl).2.1

theorem digits_length {v n : Nat} (hn : 0 < n) (h : v < 10^n) : (digits v).length ≤ n := by
  unfold digits; split
  · simp; omega
  · exact (digitsLoop_spec v v le_rfl).2.2 n h

theorem digits_ne_nil (v : Nat) : digits v ≠ [] := by
  intro h
  have hv := digits_decVal v
  rw [h] at hv
  simp [decVal] at hv
  subst hv
  simp [digits] at h

theorem fmtIntLoop_eq (k v : Nat) (acc : Bytes) (h : (digitsLoop k v acc).length ≤ 32) :
    fmtIntLoop k acc v = some (digitsLoop k v acc) := by
  induction k generalizing v acc with
  | zero => rfl
  | succ k ih =>
    unfold fmtIntLoop
    unfold digitsLoop at h ⊢
    split
    · rfl
    · next h0 =>
      rw [if_neg h0] at h
      have hl := h
      rw [digitsLoop_append] at hl
      simp at hl
      rw [put, if_pos (by omega)]
      exact ih _ _ h

theorem fmtInt_eq (v : Nat) (acc : Bytes) (h : (digits v).length + acc.length ≤ 32) :
    fmtInt acc v = some (digits v ++ acc) := by
  unfold fmtInt digits at *
  split
  · next h0 => rw [if_pos h0] at h; simp at h; rw [put, if_pos (by omega)]; rfl
  · next h0 =>
    rw [if_neg h0] at h
    rw [fmtIntLoop_eq, digitsLoop_append]
    rw [digitsLoop_append]; simpa using h

/-! ### Fractions -/

/-- What `fmtFrac` writes: nothing for 0, otherwise a dot and digits without trailing zeros. -/
structure FracOf (fs : Bytes) (v prec : Nat) : Prop where
  digit : ∀ b ∈ fs, isDigit b = true
  len : fs.length ≤ prec
  val : decVal fs * 10^(prec - fs.length) = v % 10^prec
  empty : fs = [] ↔ v % 10^prec = 0

/-- `.` and the fraction digits, or nothing when there are none. -/
def dotFrac (fs : Bytes) : Bytes := if fs = [] then [] else ch%'.' :: fs

theorem fmtFracLoop_print (k : Nat) (acc : Bytes) (v : Nat) (h : acc.length + k ≤ 32) :
    ∃ ds, fmtFracLoop k acc v true = some (ds ++ acc, v / 10^k, true) ∧ ds.length = k ∧
      (∀ b ∈ ds, isDigit b = true) ∧ decVal ds = v % 10^k := by
  induction k generalizing acc v with
  | zero => exact ⟨[], by simp [fmtFracLoop, decVal, Nat.mod_one]⟩
  | succ k ih =>
    obtain ⟨ds, h1, h2, h3, h4⟩ := ih (dg (v % 10) :: acc) (v/10) (by simp; omega)
    refine ⟨ds ++ [dg (v % 10)], ?_, by simp [h2], ?_, ?_⟩
    · unfold fmtFracLoop
      simp only [Bool.true_or, if_true]
      rw [put, if_pos (by omega)]
      simp only [Option.bind_some]
      have : (UInt8.ofNat (v % 10) + 48) = dg (v % 10) := rfl
      rw [this, h1, Nat.div_div_eq_div_mul, pow_succ]
      simp [mul_comm]
    · intro b hb
      rcases List.mem_append.mp hb with hb | hb
      · exact h3 b hb
      · simp at hb; rw [hb]; exact isDigit_dg (by omega)
    · rw [decVal_append, h4]
      simp only [decVal, List.foldl_cons, List.foldl_nil, List.length_cons, List.length_nil]
      rw [dg_toNat (by omega), pow_succ 10 k, mul_comm (10^k) 10, Nat.mod_mul]
      omega

theorem fmtFracLoop_spec (k : Nat) (acc : Bytes) (v : Nat) (h : acc.length + k ≤ 32) :
    ∃ ds p, fmtFracLoop k acc v false = some (ds ++ acc, v / 10^k, p) ∧ FracOf ds v k ∧
      (p = true ↔ ds ≠ []) := by
  induction k generalizing acc v with
  | zero => exact ⟨[], false, by simp [fmtFracLoop], ⟨by simp, by simp, by simp [decVal, Nat.mod_one], by simp [Nat.mod_one]⟩, by simp⟩
  | succ k ih =>
    unfold fmtFracLoop
    by_cases hd : v % 10 = 0
    · obtain ⟨ds, p, h1, h2, h3⟩ := ih acc (v/10) (by omega)
      refine ⟨ds, p, ?_, ?_, h3⟩
      · simp only [hd, bne_self_eq_false, Bool.or_false, Bool.false_eq_true, if_false]
        rw [h1, Nat.div_div_eq_div_mul, pow_succ, mul_comm]
      · have hm : v % 10^(k+1) = 10 * (v / 10 % 10^k) := by
          rw [pow_succ, mul_comm, Nat.mod_mul, hd]; omega
        refine ⟨h2.digit, by have := h2.len; omega, ?_, ?_⟩
        · rw [hm, ← h2.val, show k + 1 - ds.length = (k - ds.length) + 1 by have := h2.len; omega, pow_succ]
          ring
        · rw [hm, h2.empty]; omega
    · obtain ⟨ds, h1, h2, h3, h4⟩ := fmtFracLoop_print k (dg (v % 10) :: acc) (v/10) (by simp; omega)
      refine ⟨ds ++ [dg (v%10)], true, ?_, ⟨?_, by simp [h2], ?_, ?_⟩, by simp⟩
      · have : (v % 10 != 0) = true := by simpa using hd
        simp only [this, Bool.or_true, if_true]
        rw [put, if_pos (by omega)]
        simp only [Option.bind_some]
        have : (UInt8.ofNat (v % 10) + 48) = dg (v % 10) := rfl
        rw [this, h1, Nat.div_div_eq_div_mul, pow_succ]
        simp [mul_comm]
      · intro b hb
        rcases List.mem_append.mp hb with hb | hb
        · exact h3 b hb
        · simp at hb; rw [hb]; exact isDigit_dg (by omega)
      · rw [decVal_append, h4]
        simp only [decVal, List.foldl_cons, List.foldl_nil, List.length_append, List.length_cons, List.length_nil, h2]
        rw [dg_toNat (by omega), pow_succ 10 k, mul_comm (10^k) 10, Nat.mod_mul]
        simp; omega
      · rw [pow_succ, mul_comm (10^k) 10, Nat.mod_mul]
        simp; omega

theorem fmtFrac_spec (k : Nat) (acc : Bytes) (v : Nat) (h : acc.length + k < 32) :
    ∃ fs, FracOf fs v k ∧ fmtFrac acc v k = some (dotFrac fs ++ acc, v / 10^k) := by
  obtain ⟨ds, p, h1, h2, h3⟩ := fmtFracLoop_spec k acc v (by omega)
  refine ⟨ds, h2, ?_⟩
  unfold fmtFrac dotFrac
  rw [h1]
  simp only [Option.bind_some]
  by_cases hd : ds = []
  · have : p = false := by by_contra hp; exact (h3.mp (by simpa using hp)) hd
    simp [hd, this]
  · rw [h3.mpr hd]
    have := h2.len
    simp only [if_true, if_neg hd]
    rw [put, if_pos (by simp; omega)]; simp

/-- The fraction is determined by its value. -/
theorem fracVal {fs : Bytes} {v prec : Nat} (h : FracOf fs v prec) :
    (decVal fs : ℚ) / 10^fs.length = ((v % 10^prec : ℕ) : ℚ) / 10^prec := by
  have hv := h.val
  have hl := h.len
  have : (10:ℚ)^prec = 10^(prec - fs.length) * 10^fs.length := by rw [← pow_add]; congr 1; omega
  rw [← hv, this]; push_cast
  have : (0:ℚ) < 10^(prec - fs.length) := by positivity
  field_simp

end Verif.Duration
