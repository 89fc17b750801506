import Verif.Float
import Mathlib.Tactic.IntervalCases

/-
IEEE-754 binary interchange formats of 32 and 64 bits: the magnitude of a bit pattern and the pattern nearest to a
non-negative rational, ties to even.  Bit patterns are natural numbers, as in the type `Val`.

Nothing here is code of the repository: this is the meaning of Go's `float32` and `float64`, used to state what
`strconv.FormatFloat` and `strconv.ParseFloat` do (Verif/FloatText.lean).
-/
namespace Verif

/-- Bits of the stored significand. -/
def mantBits (b : Nat) : Nat := if b = 32 then 23 else 52

/-- The exponent field of infinities and NaNs. -/
def expMax (b : Nat) : Nat := if b = 32 then 255 else 2047

/-- Exponent of the least subnormal number. -/
def minExp (b : Nat) : ℤ := if b = 32 then -149 else -1074

/-- The pattern without its sign. -/
def absBits (b x : Nat) : Nat := x % 2 ^ (b - 1)

/-- The sign of a pattern. -/
def signBit (b x : Nat) : Bool := decide (2 ^ (b - 1) ≤ x)

/-- A pattern of `b` bits that is neither infinite nor a NaN. -/
def FiniteBits (b x : Nat) : Prop := x < 2 ^ b ∧ absBits b x < expMax b * 2 ^ mantBits b

instance (b x : Nat) : Decidable (FiniteBits b x) := by unfold FiniteBits; infer_instance

/-- The magnitude of an unsigned finite pattern. -/
def magOf (b y : Nat) : ℚ :=
  if y / 2 ^ mantBits b = 0 then ((y % 2 ^ mantBits b : ℕ) : ℚ) * pow2 (minExp b)
  else ((2 ^ mantBits b + y % 2 ^ mantBits b : ℕ) : ℚ) * pow2 (minExp b + (y / 2 ^ mantBits b : ℕ) - 1)

/-- Exponent of the unit in the last place for `q`. -/
def ulpE (b : Nat) (q : ℚ) : ℤ := max (binExp q - mantBits b) (minExp b)

/-- The unsigned pattern nearest to `q ≥ 0`, ties to even; from `expMax b * 2 ^ mantBits b` on, the range is exceeded. -/
def nearBits (b : Nat) (q : ℚ) : Nat :=
  if q ≤ 0 then 0 else (rne (q / pow2 (ulpE b q))).toNat + (ulpE b q - minExp b).toNat * 2 ^ mantBits b

theorem magOf_nonneg (b y : Nat) : 0 ≤ magOf b y := by
  unfold magOf
  split
  · exact mul_nonneg (by positivity) (pow2_pos _).le
  · exact mul_nonneg (by positivity) (pow2_pos _).le

theorem pow2_nat (n : Nat) : pow2 (n : ℤ) = ((2 ^ n : ℕ) : ℚ) := rfl

/-- A pattern is the nearest one to its own magnitude. -/
theorem nearBits_magOf (b y : Nat) : nearBits b (magOf b y) = y := by
  have hdiv := Nat.div_add_mod y (2 ^ mantBits b)
  set M := 2 ^ mantBits b with hM
  set e := y / M with he
  set m := y % M with hm
  have hM0 : 0 < M := by positivity
  have hmlt : m < M := Nat.mod_lt _ hM0
  have hmag : magOf b y = if e = 0 then ((m : ℕ) : ℚ) * pow2 (minExp b) else ((M + m : ℕ) : ℚ) * pow2 (minExp b + (e : ℕ) - 1) := rfl
  rw [hmag]
  clear_value e m
  by_cases h0 : e = 0
  · rw [if_pos h0]
    have hy : y = m := by rw [h0] at hdiv; omega
    by_cases hm0 : m = 0
    · rw [hm0]; simp [nearBits]; omega
    · have hq : 0 < (m : ℚ) * pow2 (minExp b) := mul_pos (by positivity) (pow2_pos _)
      have hlt : (m : ℚ) * pow2 (minExp b) < pow2 (minExp b + mantBits b) := by
        rw [pow2_add, pow2_nat, mul_comm (pow2 _)]
        refine mul_lt_mul_of_pos_right ?_ (pow2_pos _)
        exact_mod_cast hmlt
      have hu : ulpE b ((m : ℚ) * pow2 (minExp b)) = minExp b := by
        have h1 := (binExp_spec hq).1
        have := pow2_lt_iff.1 (lt_of_le_of_lt h1 hlt)
        unfold ulpE; omega
      unfold nearBits
      rw [if_neg (not_le.2 hq), hu, mul_div_assoc, div_self (pow2_pos _).ne', mul_one, sub_self]
      have := rne_int (m : ℤ)
      push_cast at this
      rw [this]; simp; omega
  · rw [if_neg h0]
    set k := minExp b + (e : ℕ) - 1 with hk
    have hq : 0 < ((M + m : ℕ) : ℚ) * pow2 k := mul_pos (by positivity) (pow2_pos _)
    have hb : binExp (((M + m : ℕ) : ℚ) * pow2 k) = mantBits b + k := by
      refine binExp_unique ?_ ?_
      · rw [pow2_add, pow2_nat]
        refine mul_le_mul_of_nonneg_right ?_ (pow2_pos _).le
        exact_mod_cast Nat.le_add_right _ _
      · have : (mantBits b : ℤ) + k + 1 = ((mantBits b + 1 : ℕ) : ℤ) + k := by push_cast; ring
        rw [this, pow2_add, pow2_nat]
        refine mul_lt_mul_of_pos_right ?_ (pow2_pos _)
        have : M + m < 2 ^ (mantBits b + 1) := by rw [pow_succ, ← hM]; omega
        exact_mod_cast this
    have hu : ulpE b (((M + m : ℕ) : ℚ) * pow2 k) = k := by
      unfold ulpE; rw [hb]
      have : minExp b ≤ k := by omega
      rw [add_sub_cancel_left, max_eq_left this]
    unfold nearBits
    rw [if_neg (not_le.2 hq), hu, mul_div_assoc, div_self (pow2_pos _).ne', mul_one]
    have := rne_int ((M + m : ℕ) : ℤ)
    push_cast at this
    push_cast
    rw [this]
    have h1 : ((M : ℤ) + m).toNat = M + m := by omega
    have h2 : (k - minExp b).toNat = e - 1 := by omega
    rw [h1, h2, ← hM]
    have : M * e = M * (e - 1) + M := by
      obtain ⟨e', rfl⟩ : ∃ e', e = e' + 1 := ⟨e - 1, by omega⟩
      simp [Nat.mul_add]
    rw [Nat.mul_comm (e - 1)]
    omega

theorem nearBits_zero (b : Nat) : nearBits b 0 = 0 := by simp [nearBits]

/-- The bounds of the rounded significand. -/
theorem rne_bounds {q : ℚ} {lo hi : ℤ} (h1 : (lo : ℚ) ≤ q) (h2 : q ≤ hi) : lo ≤ rne q ∧ rne q ≤ hi := by
  have a := rne_mono h1
  have c := rne_mono h2
  rw [rne_int] at a c
  exact ⟨a, c⟩

/-- What is not below `2 ^ (minExp + expMax + mantBits - 1)` exceeds the range. -/
theorem nearBits_big (b : Nat) (q : ℚ) (h : pow2 (minExp b + expMax b + mantBits b - 1) ≤ q) :
    expMax b * 2 ^ mantBits b ≤ nearBits b q := by
  have hq : 0 < q := lt_of_lt_of_le (pow2_pos _) h
  obtain ⟨h1, h2⟩ := binExp_spec hq
  have hlt := pow2_lt_iff.1 (lt_of_le_of_lt h h2)
  have he : 1 ≤ expMax b := by unfold expMax; split <;> omega
  have hu : ulpE b q = binExp q - mantBits b := by unfold ulpE; omega
  unfold nearBits
  rw [if_neg (not_le.2 hq), hu]
  have hlo : (((2 ^ mantBits b : ℕ) : ℤ) : ℚ) ≤ q / pow2 (binExp q - mantBits b) := by
    rw [le_div_iff₀ (pow2_pos _)]
    refine le_trans (le_of_eq ?_) h1
    have : binExp q = (mantBits b : ℤ) + (binExp q - mantBits b) := by ring
    conv_rhs => rw [this, pow2_add, pow2_nat]
    push_cast; rfl
  have hr := rne_mono hlo
  rw [rne_int] at hr
  have hk : (expMax b - 1 : ℕ) ≤ (binExp q - mantBits b - minExp b).toNat := by omega
  have hmul := Nat.mul_le_mul_right (2 ^ mantBits b) hk
  have hr' : 2 ^ mantBits b ≤ (rne (q / pow2 (binExp q - mantBits b))).toNat := by omega
  have : expMax b * 2 ^ mantBits b = (expMax b - 1) * 2 ^ mantBits b + 2 ^ mantBits b := by
    obtain ⟨n, hn⟩ : ∃ n, expMax b = n + 1 := ⟨expMax b - 1, by omega⟩
    rw [hn, Nat.add_sub_cancel, Nat.add_mul, Nat.one_mul]
  omega

/-- What is below half of the least number is rounded to zero. -/
theorem nearBits_tiny (b : Nat) (q : ℚ) (h : q < pow2 (minExp b - 1)) : nearBits b q = 0 := by
  by_cases hq : q ≤ 0
  · simp [nearBits, hq]
  · have hq := not_le.1 hq
    obtain ⟨h1, h2⟩ := binExp_spec hq
    have hlt := pow2_lt_iff.1 (lt_of_le_of_lt h1 h)
    have hu : ulpE b q = minExp b := by unfold ulpE; omega
    unfold nearBits
    rw [if_neg (not_le.2 hq), hu, sub_self]
    have hhalf : q / pow2 (minExp b) < 1 / 2 := by
      rw [div_lt_iff₀ (pow2_pos _)]
      refine lt_of_lt_of_eq h ?_
      rw [sub_eq_add_neg, pow2_add]
      simp [pow2_eq, mul_comm]
    have h0 : 0 ≤ q / pow2 (minExp b) := div_nonneg hq.le (pow2_pos _).le
    have hf : ⌊q / pow2 (minExp b)⌋ = 0 := by
      rw [Int.floor_eq_zero_iff]; exact ⟨h0, by linarith⟩
    have : rne (q / pow2 (minExp b)) = 0 := by
      unfold rne
      simp only [hf]
      rw [if_pos (by push_cast; linarith)]
    rw [this]; simp

theorem magOf_at (b n j : Nat) (hn : n ≤ 2 * 2 ^ mantBits b) (hj : j = 0 ∨ 2 ^ mantBits b ≤ n) :
    magOf b (n + j * 2 ^ mantBits b) = (n : ℚ) * pow2 (minExp b + j) := by
  unfold magOf
  set M := 2 ^ mantBits b with hM
  have hM0 : 0 < M := by positivity
  by_cases h1 : n < M
  · obtain rfl : j = 0 := by omega
    simp [Nat.div_eq_of_lt h1, Nat.mod_eq_of_lt h1]
  · by_cases h2 : n < 2 * M
    · have e1 : n + j * M = (n - M) + (j + 1) * M := by rw [Nat.add_mul]; omega
      have hd : (n + j * M) / M = j + 1 := by
        rw [e1, Nat.add_mul_div_right _ _ hM0, Nat.div_eq_of_lt (by omega)]; omega
      have hm : (n + j * M) % M = n - M := by
        rw [e1, Nat.add_mul_mod_self_right, Nat.mod_eq_of_lt (by omega)]
      rw [hd, hm, if_neg (by omega)]
      congr 1
      · congr 1; omega
      · congr 1; push_cast; ring
    · have e1 : n + j * M = (j + 2) * M := by rw [Nat.add_mul]; omega
      have hd : (n + j * M) / M = j + 2 := by rw [e1, Nat.mul_div_cancel _ hM0]
      have hm : (n + j * M) % M = 0 := by rw [e1, Nat.mul_mod_left]
      rw [hd, hm, if_neg (by omega)]
      have : n = 2 * M := by omega
      rw [this]
      have e2 : minExp b + ((j + 2 : ℕ) : ℤ) - 1 = (minExp b + j) + 1 := by push_cast; ring
      rw [e2, pow2_add (minExp b + j) 1, show pow2 1 = 2 by simp [pow2_eq]]
      push_cast; ring

/-- The rounded significand for `q`. -/
theorem rne_ulp {b : Nat} {q : ℚ} (hq : 0 < q) : 0 ≤ rne (q / pow2 (ulpE b q)) ∧
    rne (q / pow2 (ulpE b q)) ≤ 2 * 2 ^ mantBits b ∧
    (ulpE b q = minExp b ∨ (2 ^ mantBits b : ℤ) ≤ rne (q / pow2 (ulpE b q))) := by
  obtain ⟨h1, h2⟩ := binExp_spec hq
  have hle : binExp q - mantBits b ≤ ulpE b q := le_max_left _ _
  have hup : q / pow2 (ulpE b q) ≤ ((2 * 2 ^ mantBits b : ℤ) : ℚ) := by
    rw [div_le_iff₀ (pow2_pos _)]
    refine h2.le.trans ?_
    have : pow2 (binExp q + 1) ≤ pow2 (((mantBits b + 1 : ℕ) : ℤ) + ulpE b q) := pow2_mono (by push_cast; omega)
    refine this.trans (le_of_eq ?_)
    rw [pow2_add, pow2_nat]; push_cast; rw [pow_succ]; ring
  refine ⟨rne_nonneg (div_nonneg hq.le (pow2_pos _).le), ?_, ?_⟩
  · have := rne_mono hup; rwa [rne_int] at this
  · by_cases h : ulpE b q = minExp b
    · exact Or.inl h
    · right
      have hu : ulpE b q = binExp q - mantBits b := by unfold ulpE at h ⊢; omega
      have hlo : ((2 ^ mantBits b : ℤ) : ℚ) ≤ q / pow2 (ulpE b q) := by
        rw [le_div_iff₀ (pow2_pos _)]
        refine le_trans (le_of_eq ?_) h1
        have : binExp q = (mantBits b : ℤ) + ulpE b q := by omega
        rw [this, pow2_add, pow2_nat]; push_cast; rfl
      have := rne_mono hlo; rwa [rne_int] at this

/-- The nearest pattern in terms of significand and exponent. -/
theorem nearBits_parts {b : Nat} {q : ℚ} (hq : 0 < q) : ∃ n j : ℕ, rne (q / pow2 (ulpE b q)) = n ∧
    ulpE b q = minExp b + j ∧ nearBits b q = n + j * 2 ^ mantBits b ∧ n ≤ 2 * 2 ^ mantBits b ∧
    (j = 0 ∨ 2 ^ mantBits b ≤ n) := by
  obtain ⟨h0, h1, h2⟩ := rne_ulp (b := b) hq
  have hle : minExp b ≤ ulpE b q := le_max_right _ _
  obtain ⟨n, hn⟩ : ∃ n : ℕ, rne (q / pow2 (ulpE b q)) = n := ⟨(rne (q / pow2 (ulpE b q))).toNat, by omega⟩
  obtain ⟨j, hj⟩ : ∃ j : ℕ, ulpE b q = minExp b + j := ⟨(ulpE b q - minExp b).toNat, by omega⟩
  refine ⟨n, j, hn, hj, ?_, ?_, ?_⟩
  · unfold nearBits
    rw [if_neg (not_le.2 hq), hn, hj]
    have e2 : (minExp b + (j : ℤ) - minExp b).toNat = j := by omega
    rw [e2]; rfl
  · rw [hn] at h1; exact_mod_cast h1
  · rcases h2 with h2 | h2
    · left; omega
    · right; rw [hn] at h2; exact_mod_cast h2

/-- The magnitude of the nearest pattern. -/
theorem magOf_nearBits {b : Nat} {q : ℚ} (hq : 0 < q) :
    magOf b (nearBits b q) = (rne (q / pow2 (ulpE b q)) : ℚ) * pow2 (ulpE b q) := by
  obtain ⟨n, j, h1, h2, h3, h4, h5⟩ := nearBits_parts (b := b) hq
  rw [h3, magOf_at b n j h4 h5, h1, h2]
  push_cast; rfl

/-- For 64 bits, the nearest pattern is the rounding `fl` used elsewhere. -/
theorem magOf_nearBits_fl {q : ℚ} (hq : 0 < q) : magOf 64 (nearBits 64 q) = fl q := by
  rw [magOf_nearBits hq]
  unfold fl
  rw [if_neg (not_le.2 hq)]
  rfl

/-- Larger patterns have larger magnitudes. -/
theorem nearBits_mono (b : Nat) {p q : ℚ} (h : p ≤ q) : nearBits b p ≤ nearBits b q := by
  by_cases hp : p ≤ 0
  · simp [nearBits, hp]
  · have hp := not_le.1 hp
    have hq := lt_of_lt_of_le hp h
    have hb := binExp_mono hp h
    have hu : ulpE b p ≤ ulpE b q := by unfold ulpE; omega
    obtain ⟨p0, p1, p2⟩ := rne_ulp (b := b) hp
    obtain ⟨q0, q1, q2⟩ := rne_ulp (b := b) hq
    have hlp : minExp b ≤ ulpE b p := le_max_right _ _
    unfold nearBits
    rw [if_neg (not_le.2 hp), if_neg (not_le.2 hq)]
    rcases hu.eq_or_lt with he | he
    · rw [he]
      have : rne (p / pow2 (ulpE b q)) ≤ rne (q / pow2 (ulpE b q)) :=
        rne_mono (div_le_div_of_nonneg_right h (pow2_pos _).le)
      omega
    · have q2 := q2.resolve_left (by omega)
      have hk : (ulpE b p - minExp b).toNat + 1 ≤ (ulpE b q - minExp b).toNat := by omega
      have := Nat.mul_le_mul_right (2 ^ mantBits b) hk
      rw [Nat.add_mul, Nat.one_mul] at this
      zify at this ⊢
      have e1 : ((rne (p / pow2 (ulpE b p))).toNat : ℤ) = rne (p / pow2 (ulpE b p)) := by omega
      have e2 : ((rne (q / pow2 (ulpE b q))).toNat : ℤ) = rne (q / pow2 (ulpE b q)) := by omega
      rw [Int.toNat_of_nonneg p0, Int.toNat_of_nonneg q0]
      linarith

theorem magOf_strictMono (b : Nat) {x y : Nat} (h : x < y) : magOf b x < magOf b y := by
  by_contra hc
  have := nearBits_mono b (not_lt.1 hc)
  rw [nearBits_magOf, nearBits_magOf] at this
  omega

/-- The nearest pattern is nearest: no pattern has a magnitude closer to `q`. -/
theorem nearBits_nearest (b : Nat) {q : ℚ} (hq : 0 ≤ q) (y : Nat) :
    |magOf b (nearBits b q) - q| ≤ |magOf b y - q| := by
  rcases hq.eq_or_lt with rfl | hq
  · rw [nearBits_zero]
    have : magOf b 0 = 0 := by simp [magOf]
    rw [this]; simp
  · obtain ⟨h1, h2⟩ := binExp_spec hq
    obtain ⟨n, j, hn, hj, hx, hn2, hj0⟩ := nearBits_parts (b := b) hq
    have hv : magOf b (nearBits b q) = n * pow2 (minExp b + j) := by rw [hx, magOf_at b n j hn2 hj0]
    have hle : binExp q - mantBits b ≤ ulpE b q := le_max_left _ _
    set u := pow2 (minExp b + j) with hu
    have hu0 : 0 < u := pow2_pos _
    have herr : |(n : ℚ) * u - q| ≤ u / 2 := by
      have := rne_err (q / pow2 (ulpE b q))
      rw [hn, hj, ← hu] at this
      have e : (n : ℚ) * u - q = ((n : ℚ) - q / u) * u := by field_simp
      rw [e, abs_mul, abs_of_pos hu0]
      push_cast at this
      nlinarith
    rw [hv]
    by_cases hc : (n : ℚ) * u ≤ q
    · by_cases hy : magOf b y ≤ n * u
      · rw [abs_of_nonpos (by linarith), abs_of_nonpos (by linarith)]; linarith
      · have hlt : nearBits b q < y := by
          by_contra hh
          rcases (not_lt.1 hh).eq_or_lt with e | e
          · rw [e, hv] at hy; exact hy le_rfl
          · have := magOf_strictMono b e; rw [hv] at this; exact hy this.le
        have hstep : magOf b (nearBits b q + 1) ≤ magOf b y := by
          rcases Nat.lt_or_ge (nearBits b q + 1) y with e | e
          · exact (magOf_strictMono b e).le
          · rw [show y = nearBits b q + 1 by omega]
        have hn3 : n < 2 * 2 ^ mantBits b := by
          have h3 : q < (2 * 2 ^ mantBits b : ℕ) * u := by
            refine lt_of_lt_of_le h2 ?_
            have : pow2 (binExp q + 1) ≤ pow2 (((mantBits b + 1 : ℕ) : ℤ) + (minExp b + j)) :=
              pow2_mono (by push_cast; omega)
            refine this.trans (le_of_eq ?_)
            rw [pow2_add, pow2_nat, hu, pow_succ]; push_cast; ring
          have h4 := lt_of_le_of_lt hc h3
          exact_mod_cast lt_of_mul_lt_mul_right h4 hu0.le
        rw [hx, show n + j * 2 ^ mantBits b + 1 = (n + 1) + j * 2 ^ mantBits b by ring,
          magOf_at b (n + 1) j (by omega) (by omega)] at hstep
        rw [← hu] at hstep
        push_cast at hstep
        rw [abs_le] at herr
        rw [abs_of_nonpos (by linarith), abs_of_nonneg (by linarith)]
        linarith
    · have hc := not_le.1 hc
      by_cases hy : n * u ≤ magOf b y
      · rw [abs_of_nonneg (by linarith), abs_of_nonneg (by linarith)]; linarith
      · have hlt : y < nearBits b q := by
          by_contra hh
          rcases (not_lt.1 hh).eq_or_lt with e | e
          · rw [← e, hv] at hy; exact hy le_rfl
          · have := magOf_strictMono b e; rw [hv] at this; exact hy this.le
        have hn1 : 1 ≤ n := by
          rcases Nat.eq_zero_or_pos n with e | e
          · rw [e] at hc; simp at hc; linarith
          · exact e
        have hjm : j = 0 ∨ 2 ^ mantBits b ≤ n - 1 := by
          rcases hj0 with e | e
          · exact Or.inl e
          · by_contra hh
            obtain ⟨hh1, hh2⟩ := not_or.1 hh
            have hn' : n = 2 ^ mantBits b := by omega
            have hu' : ulpE b q = binExp q - mantBits b := by unfold ulpE at hj ⊢; omega
            have : (n : ℚ) * u ≤ q := by
              refine le_trans (le_of_eq ?_) h1
              have e3 : binExp q = (mantBits b : ℤ) + (minExp b + j) := by omega
              rw [e3, pow2_add, pow2_nat, hn']
            linarith
        have hstep : magOf b y ≤ magOf b (nearBits b q - 1) := by
          rcases Nat.lt_or_ge y (nearBits b q - 1) with e | e
          · exact (magOf_strictMono b e).le
          · rw [show y = nearBits b q - 1 by omega]
        rw [hx, show n + j * 2 ^ mantBits b - 1 = (n - 1) + j * 2 ^ mantBits b by omega,
          magOf_at b (n - 1) j (by omega) hjm] at hstep
        rw [← hu, Nat.cast_sub hn1] at hstep
        push_cast at hstep
        rw [abs_le] at herr
        rw [abs_of_nonneg (by linarith), abs_of_nonpos (by linarith)]
        linarith

end Verif
