import Verif.DateTimeProps
import Verif.PeriodProps

namespace Verif.DateTime
open Verif Strconv DateTimeSpec

theorem flS_err (q : ℚ) : |flS q - q| ≤ |q| * pow2 (-53) + pow2 (-1075) := by
  unfold flS
  split_ifs with h
  · have := Duration.fl_err_all (q := -q) (by linarith)
    rw [abs_of_neg h]
    have e : -fl (-q) - q = -(fl (-q) - -q) := by ring
    rw [e, abs_neg]; exact this
  · have := Duration.fl_err_all (q := q) (by linarith)
    rw [abs_of_nonneg (by linarith : (0:ℚ) ≤ q)]; exact this

theorem pow2_small : pow2 (-53) ≤ 1 / 9007199254740992 ∧ pow2 (-1075) ≤ 1 / 10 ^ 15 := by
  constructor
  · rw [pow2_eq]; norm_num
  · have h : pow2 (-1075) ≤ pow2 (-50) := pow2_mono (by norm_num)
    have : pow2 (-50) ≤ 1 / 10 ^ 15 := by rw [pow2_eq]; norm_num
    linarith

/-- Rounding error for values below 2^35. -/
theorem flS_err_small {q B : ℚ} (h : |q| ≤ B) : |flS q - q| ≤ B / 9007199254740992 + 1 / 10 ^ 15 := by
  have h1 := flS_err q
  have h2 := pow2_small
  have h3 := abs_nonneg q
  have h4 := pow2_pos (-53)
  have : |q| * pow2 (-53) ≤ B * (1 / 9007199254740992) := by
    apply mul_le_mul h h2.1 h4.le (by linarith)
  linarith

/-- Nanoseconds to seconds in floating point: within 2.1 microseconds over the whole int64 range. -/
theorem nanoSec_err {n : Int} (h : IsI64 n) : |flS (flS n / 1000000000) - (n : ℚ) / 1000000000| ≤ 21 / 10 ^ 7 := by
  unfold IsI64 at h
  have hq : |(n : ℚ)| ≤ 9223372036854775808 := by
    rw [abs_le]
    constructor
    · have : (-9223372036854775808 : ℤ) ≤ n := by omega
      exact_mod_cast this
    · have : n ≤ (9223372036854775808 : ℤ) := by omega
      exact_mod_cast this
  have e1 := flS_err_small hq
  norm_num at e1
  have hx : |flS (n : ℚ) / 1000000000| ≤ 9223372038 := by
    rw [abs_le] at e1 hq ⊢
    constructor
    · rw [le_div_iff₀ (by norm_num)]; linarith
    · rw [div_le_iff₀ (by norm_num)]; linarith
  have e2 := flS_err_small hx
  rw [abs_le] at e1 e2 ⊢
  constructor <;> norm_num at e1 e2 ⊢ <;> linarith

theorem denotes_lt {txt : Bytes} {sec : Int} {num k : Nat} (h : Denotes txt sec num k) : num < 10 ^ k := by
  obtain ⟨_, _, _, _, _, _, f, _, _, _, _, _, _, _, _, _, _, _, _, _, _, _, _, hf, _⟩ := h
  cases hf with
  | none => simp
  | some _ hd => exact decVal_lt hd

theorem denotes_ne {txt : Bytes} {sec : Int} {num k : Nat} (h : Denotes txt sec num k) : txt ≠ [] := by
  rintro rfl
  have := C21_read [] sec num k h
  simp [parse, year4] at this

/-- **C21**, fractions. Whatever date-time text is read, the result is within 3 microseconds of the instant
it denotes (instants within the int64 nanosecond range, 1677 to 2262). -/
theorem C21_read_close (txt : Bytes) (sec : Int) (num k : Nat) (h : Denotes txt sec num k)
    (h1 : -9223372036 ≤ sec) (h2 : sec < 9223372036) :
    ∃ v, convertToSeconds txt = some v ∧ |v - (sec + (num : ℚ) / 10 ^ k)| ≤ 3 / 10 ^ 6 := by
  have hp := C21_read txt sec num k h
  refine ⟨_, by unfold convertToSeconds; rw [hp]; rfl, ?_⟩
  have hnum := denotes_lt h
  have hns : num * 10 ^ 9 / 10 ^ k < 10 ^ 9 := by
    rw [Nat.div_lt_iff_lt_mul (by positivity), Nat.mul_comm]
    exact Nat.mul_lt_mul_of_pos_left hnum (by norm_num)
  have hu : ∀ q : ℕ, q < 10 ^ 9 → unixNano ⟨sec, q⟩ = sec * 1000000000 + q := by
    intro q hq; unfold unixNano; simp only; unfold i64; omega
  have e : ∀ q : ℕ, q < 10 ^ 9 → _ := fun q hq =>
    nanoSec_err (n := sec * 1000000000 + q) (by unfold IsI64; omega)
  simp only
  rw [hu _ hns]
  replace e := e _ hns
  have hkq : (0 : ℚ) < 10 ^ k := by positivity
  have g1 : ((num * 10 ^ 9 / 10 ^ k : ℕ) : ℚ) ≤ num / 10 ^ k * 10 ^ 9 := by
    have := Nat.div_mul_le_self (num * 10 ^ 9) (10 ^ k)
    have hh : ((num * 10 ^ 9 / 10 ^ k : ℕ) : ℚ) * 10 ^ k ≤ num * 10 ^ 9 := by exact_mod_cast this
    rw [div_mul_eq_mul_div, le_div_iff₀ hkq]; exact hh
  have g2 : (num : ℚ) / 10 ^ k * 10 ^ 9 < ((num * 10 ^ 9 / 10 ^ k : ℕ) : ℚ) + 1 := by
    have := Nat.lt_div_mul_add (a := num * 10 ^ 9) (b := 10 ^ k) (by positivity)
    have hh : (num : ℚ) * 10 ^ 9 < ((num * 10 ^ 9 / 10 ^ k : ℕ) : ℚ) * 10 ^ k + 10 ^ k := by exact_mod_cast this
    rw [div_mul_eq_mul_div, div_lt_iff₀ hkq]
    linarith
  generalize (num * 10 ^ 9 / 10 ^ k : ℕ) = q at *
  push_cast at e ⊢
  generalize flS (flS ((sec : ℚ) * 1000000000 + (q : ℚ)) / 1000000000) = v at *
  rw [abs_le] at e ⊢
  constructor <;> norm_num at e g1 g2 ⊢ <;> linarith

/-- Instants outside the int64 nanosecond range come back as something else altogether: the text for
1 January 2300 is read as a time before 1970. -/
theorem C21_far_refuted : ∃ v, dateTimeS 10413792000 = (b!"2300-01-01T00:00:00Z") ∧
    convertToSeconds (b!"2300-01-01T00:00:00Z") = some v ∧ v < 0 := by
  refine ⟨flS (flS (unixNano ⟨10413792000, 0⟩) / 1000000000), by decide +kernel, ?_, ?_⟩
  · unfold convertToSeconds
    have : parse (b!"2300-01-01T00:00:00Z") = some ⟨10413792000, 0⟩ := by decide +kernel
    rw [this]; rfl
  · have : unixNano ⟨10413792000, 0⟩ = -8032952073709551616 := by decide
    rw [this]
    have e := nanoSec_err (n := -8032952073709551616) (by unfold IsI64; omega)
    rw [abs_le] at e
    have := e.2
    norm_num at this ⊢
    linarith

/-! ### C15 -/

/-- **C15**. `AbsoluteStart` fails exactly when the availability start time is missing or unreadable or the
period has no start, with the corresponding error in that order of precedence. -/
theorem C15_errors (ast : Bytes) (start : Except Period.Err Int) :
    (absoluteStart ast start = .error .astRequired ↔ ast = []) ∧
    (absoluteStart ast start = .error .badAST ↔ ast ≠ [] ∧ parse ast = none) ∧
    (∀ e, absoluteStart ast start = .error (.start e) ↔ ast ≠ [] ∧ parse ast ≠ none ∧ start = .error e) ∧
    ((∃ v, absoluteStart ast start = .ok v) ↔ ast ≠ [] ∧ parse ast ≠ none ∧ ∃ d, start = .ok d) := by
  unfold absoluteStart convertToSeconds
  by_cases h : ast = []
  · simp [h]
  · cases hp : parse ast with
    | none => simp [h]
    | some t => cases start <;> simp [h]

theorem sum_bound {a s sec f : ℚ} {d : ℤ} (hb : |a - (sec + f)| ≤ 3 / 10 ^ 6)
    (e : |s - (d : ℚ) / 1000000000| ≤ 21 / 10 ^ 7) (s1 : -9223372036 ≤ sec) (s2 : sec ≤ 9223372036)
    (f0 : 0 ≤ f) (f1 : f ≤ 1) (hd : IsI64 d) : |a + s| ≤ 18446744080 := by
  unfold IsI64 at hd
  have d1 : (-9223372036854775808 : ℚ) ≤ d := by
    have : (-9223372036854775808 : ℤ) ≤ d := by omega
    exact_mod_cast this
  have d2 : (d : ℚ) ≤ 9223372036854775808 := by
    have : d ≤ (9223372036854775808 : ℤ) := by omega
    exact_mod_cast this
  rw [abs_le] at hb e ⊢
  constructor <;> norm_num at hb e ⊢ <;> linarith

/-- **C15**. The sum of the availability start time and the period start, within 10 microseconds. -/
theorem C15_close (ast : Bytes) (sec : Int) (num k : Nat) (h : Denotes ast sec num k)
    (h1 : -9223372036 ≤ sec) (h2 : sec < 9223372036) (d : Int) (hd : IsI64 d) :
    ∃ v, absoluteStart ast (.ok d) = .ok v ∧
      |v - ((sec + (num : ℚ) / 10 ^ k) + (d : ℚ) / 10 ^ 9)| ≤ 1 / 10 ^ 5 := by
  obtain ⟨a, ha, hb⟩ := C21_read_close ast sec num k h h1 h2
  have hne := denotes_ne h
  refine ⟨flS (a + durSeconds d), by unfold absoluteStart; rw [if_neg hne, ha], ?_⟩
  have e := nanoSec_err hd
  unfold durSeconds
  generalize flS (flS (d : ℚ) / 1000000000) = s at *
  have hnum := denotes_lt h
  have f0 : (0 : ℚ) ≤ (num : ℚ) / 10 ^ k := by positivity
  have f1 : (num : ℚ) / 10 ^ k ≤ 1 := by
    rw [div_le_one (by positivity)]; exact_mod_cast hnum.le
  generalize (num : ℚ) / 10 ^ k = f at *
  have s1 : (-9223372036 : ℚ) ≤ sec := by exact_mod_cast h1
  have s2 : (sec : ℚ) ≤ 9223372036 := by exact_mod_cast h2.le
  have hs : |a + s| ≤ 18446744080 := sum_bound hb e s1 s2 f0 f1 hd
  have e3 := flS_err_small hs
  generalize flS (a + s) = v at *
  have hd1 : (1 : ℚ) / 10 ^ 15 ≤ 1 / 10 ^ 9 := by norm_num
  rw [abs_le] at hb e e3 ⊢
  constructor <;> linarith

/-- **C15**, whole seconds. When availability start time and period start are whole seconds (up to 2116), the
result is their exact sum. -/
theorem C15_exact (ast : Bytes) (sec : Int) (h : Denotes ast sec 0 0) (h1 : -4611686018 ≤ sec)
    (h2 : sec ≤ 4611686018) (d : Int) (h3 : -4611686018 ≤ d) (h4 : d ≤ 4611686018) :
    absoluteStart ast (.ok (d * 1000000000)) = .ok ((sec + d : Int) : ℚ) := by
  have hr := C21_read ast sec 0 0 h
  have hne : ast ≠ [] := by
    rintro rfl
    simp [parse, year4] at hr
  have key : ∀ s : Int, -4611686018 ≤ s → s ≤ 4611686018 →
      flS (flS (s * 1000000000) / 1000000000) = s := by
    intro s a b
    rw [int_roundtrip (by omega) (by omega)]
    have : |s| ≤ 4611686018 := abs_le.2 ⟨by omega, b⟩
    unfold Bad; omega
  unfold absoluteStart
  rw [if_neg hne]
  have hu : unixNano ⟨sec, 0 * 10 ^ 9 / 10 ^ 0⟩ = sec * 1000000000 := by
    unfold unixNano; simp; unfold i64; omega
  have hc : convertToSeconds ast = some (sec : ℚ) := by
    unfold convertToSeconds
    rw [hr, Option.map_some, hu]
    push_cast
    rw [key sec h1 h2]
  have hds : durSeconds (d * 1000000000) = (d : ℚ) := by
    unfold durSeconds
    push_cast
    exact key d h3 h4
  simp only [hc, hds]
  congr 1
  have : (sec : ℚ) + d = ((sec + d : Int) : ℚ) := by push_cast; ring
  rw [this]
  rcases le_or_gt 0 (sec + d) with hh | hh
  · obtain ⟨n, hn⟩ := Int.eq_ofNat_of_zero_le hh
    rw [hn, flS_of_nonneg (by simp)]
    have := fl_nat (n := n) (by omega)
    exact_mod_cast this
  · obtain ⟨n, hn⟩ := Int.eq_ofNat_of_zero_le (by omega : 0 ≤ -(sec + d))
    have : sec + d = -(n : ℤ) := by omega
    rw [this]; push_cast
    rw [flS_neg, flS_of_nonneg (by simp), fl_nat (by omega)]

example : Denotes (b!"2020-01-01T00:00:00Z") 1577836800 0 0 := by
  have := C21_text_S 1577836800 (by norm_num) (by norm_num)
  have e : dateTimeS 1577836800 = (b!"2020-01-01T00:00:00Z") := by decide +kernel
  rwa [e] at this

/-! ### `ConvertToDateTime` of a float -/

theorem truncQ_close (q : ℚ) : |(truncQ q : ℚ) - q| < 1 := by
  unfold truncQ
  rw [abs_lt]
  split_ifs with h
  · have h1 := Int.floor_le (-q)
    have h2 := Int.lt_floor_add_one (-q)
    push_cast
    constructor <;> linarith
  · have h1 := Int.floor_le q
    have h2 := Int.lt_floor_add_one q
    constructor <;> linarith

theorem flS_int {s : Int} (h : |s| < 2 ^ 53) : flS (s : ℚ) = s := by
  rcases le_or_gt 0 s with hh | hh
  · obtain ⟨n, rfl⟩ := Int.eq_ofNat_of_zero_le hh
    rw [abs_of_nonneg hh] at h
    rw [flS_of_nonneg (by simp)]
    have := fl_nat (n := n) (by omega)
    exact_mod_cast this
  · obtain ⟨n, hn⟩ := Int.eq_ofNat_of_zero_le (by omega : 0 ≤ -s)
    have : s = -(n : ℤ) := by omega
    subst this
    rw [abs_of_neg hh] at h
    push_cast
    rw [flS_neg, flS_of_nonneg (by simp), fl_nat (by omega)]

/-- **C21**, floats. The text for a float denotes an instant at most a millisecond (plus two nanoseconds of
float error) before it, and never more than two nanoseconds after it. -/
theorem C21_text_float (x : ℚ) (h1 : -62167219199 ≤ x) (h2 : x ≤ 253402300798) :
    ∃ sec num k, Denotes (dateTimeF x) sec num k ∧ k ≤ 3 ∧
      x - 1 / 1000 - 2 / 10 ^ 9 < sec + (num : ℚ) / 10 ^ k ∧ sec + (num : ℚ) / 10 ^ k < x + 2 / 10 ^ 9 := by
  unfold dateTimeF
  simp only
  have ht := truncQ_close x
  generalize truncQ x = s at *
  rw [abs_lt] at ht
  have s1 : (-62167219201 : ℤ) < s := by
    have : (-62167219201 : ℚ) < s := by linarith
    exact_mod_cast this
  have s2 : s < (253402300800 : ℤ) := by
    have : (s : ℚ) < 253402300800 := by linarith
    exact_mod_cast this
  rw [flS_int (s := s) (by rw [abs_lt]; omega)]
  have hd : |x - s| ≤ 1 := by rw [abs_le]; constructor <;> linarith
  have e1 := flS_err_small hd
  generalize flS (x - s) = y at *
  have hy : |y * 1000000000| ≤ 1000000001 := by
    rw [abs_le] at e1 hd ⊢
    constructor <;> norm_num at e1 ⊢ <;> linarith
  have e2 := flS_err_small hy
  generalize flS (y * 1000000000) = z at *
  have e3 := truncQ_close z
  generalize truncQ z = ns at *
  have hu := unix_spec s ns
  have hns : -1000000003 < ns ∧ ns < 1000000003 := by
    rw [abs_le] at e2 hy
    rw [abs_lt] at e3
    constructor
    · have : (-1000000003 : ℚ) < ns := by norm_num at e2 ⊢; linarith
      exact_mod_cast this
    · have : (ns : ℚ) < 1000000003 := by norm_num at e2 ⊢; linarith
      exact_mod_cast this
  have near : |(s : ℚ) + ns / 10 ^ 9 - x| < 2 / 10 ^ 9 := by
    rw [abs_le] at e1 e2
    rw [abs_lt] at e3 ⊢
    constructor <;> norm_num at e1 e2 ⊢ <;> linarith
  generalize unix s ns = t at *
  have tq : (t.sec : ℚ) * 10 ^ 9 + t.nsec = s * 10 ^ 9 + ns := by exact_mod_cast hu.2
  have tn : (t.nsec : ℚ) < 1000000000 := by exact_mod_cast hu.1
  have tn0 : (0 : ℚ) ≤ t.nsec := by positivity
  rw [abs_lt] at near
  have t1 : (-62167219201 : ℤ) < t.sec := by
    have : (-62167219201 : ℚ) < t.sec := by norm_num at near tq ⊢; linarith
    exact_mod_cast this
  have t2 : t.sec < (253402300800 : ℤ) := by
    have : (t.sec : ℚ) < 253402300800 := by norm_num at near tq ⊢; linarith
    exact_mod_cast this
  obtain ⟨num, k, hD, hk, hn, _⟩ := format_denotes t hu.1 (by omega) (by omega)
  refine ⟨_, _, _, hD, hk, ?_⟩
  have hp : (0:ℚ) < 10 ^ k := by positivity
  have hv : (num : ℚ) / 10 ^ k = ((t.nsec / 10 ^ 6 : ℕ) : ℚ) / 1000 := by
    have e2 : (num : ℚ) * 1000 = ((t.nsec / 10 ^ 6 : ℕ) : ℚ) * 10 ^ k := by exact_mod_cast hn
    field_simp; linarith
  rw [hv]
  have q1 : ((t.nsec / 10 ^ 6 : ℕ) : ℚ) * 10 ^ 6 ≤ t.nsec := by
    have : t.nsec / 10 ^ 6 * 10 ^ 6 ≤ t.nsec := by omega
    exact_mod_cast this
  have q2 : (t.nsec : ℚ) < ((t.nsec / 10 ^ 6 : ℕ) : ℚ) * 10 ^ 6 + 10 ^ 6 := by
    have : t.nsec < t.nsec / 10 ^ 6 * 10 ^ 6 + 10 ^ 6 := by omega
    exact_mod_cast this
  generalize ((t.nsec / 10 ^ 6 : ℕ) : ℚ) = q at *
  constructor <;> norm_num at near tq q1 q2 ⊢ <;> linarith

/-! ### Years outside 0 to 9999 -/

theorem civil_year_out {z : Int} (h1 : 0 ≤ (civilOfDays z).year) (h2 : (civilOfDays z).year ≤ 9999) :
    -719528 ≤ z ∧ z ≤ 2932896 := by
  have hc := civil_spec z
  obtain ⟨y', mp, doy, e1, e2, e3, e4, e5, e6, e7, e8⟩ := dno_doy hc.1
  have hz : dno ⟨(civilOfDays z).year, (civilOfDays z).month, (civilOfDays z).day⟩ = z := hc.2
  rw [hz] at e3
  have hm1 := hc.1.1
  have hm2 := hc.1.2.1
  simp only at *
  have b0 : yearBase 0 = 0 := by decide
  have b1 : yearBase (-1) = -366 := by decide
  have b2 : yearBase 9999 = 3652059 := by decide
  have hlo : -1 ≤ y' := by split_ifs at e1 <;> omega
  have hhi : y' ≤ 9999 := by split_ifs at e1 <;> omega
  constructor
  · by_cases hy : y' = -1
    · subst hy
      have : (civilOfDays z).month ≤ 2 := by
        by_contra hh; rw [if_neg hh] at e1; omega
      rw [if_pos this] at e2
      omega
    · have := yearBase_mono (a := 0) (b := y') (by omega)
      omega
  · by_cases hy : y' = 9999
    · subst hy
      have : ¬ (civilOfDays z).month ≤ 2 := by
        intro hh; rw [if_pos hh] at e1; omega
      rw [if_neg this] at e2
      omega
    · have := yearBase_lt (a := y') (b := 9999) (by omega)
      have : (0:Int) ≤ (if Leap (y' + 1) then 1 else 0) := by split_ifs <;> omega
      omega

/-- A text that starts with five digits or with a sign is not a date. -/
theorem parse_digits5 {ds : Bytes} (h : ∀ b ∈ ds, isDigit b = true) (hl : 5 ≤ ds.length) (rest : Bytes) : parse (ds ++ rest) = none := by
  match ds, hl with
  | a :: b :: c :: d :: e :: ds, _ =>
    have he : isDigit e = true := h e (by simp)
    have hne : e ≠ ch%'-' := by rintro rfl; revert he; decide
    have : year4 (a :: b :: c :: d :: e :: ds ++ rest) = some (((digitVal a * 10 + digitVal b) * 10 + digitVal c) * 10 + digitVal d, e :: ds ++ rest) := by
      simp [year4, h a (by simp), h b (by simp), h c (by simp), h d (by simp)]
    have hlit : lit ch%'-' (e :: ds ++ rest) = none := if_neg hne
    unfold parse
    rw [this, Option.bind_eq_bind, Option.bind_some]
    dsimp only
    rw [hlit]
    rfl

theorem parse_sign (rest : Bytes) : parse (ch%'-' :: rest) = none := by
  have : year4 (ch%'-' :: rest) = none := by
    unfold year4
    split
    · rename_i h
      injection h with h _
      subst h
      rfl
    · rfl
  unfold parse
  rw [this]
  rfl

/-- **C21**. Instants before the year 0 or after the year 9999 are written, with a sign or with more than four digits, but never
read as another instant: `ConvertToSeconds` reports an error. -/
theorem C21_outside (s : Int) (h : s < -62167219200 ∨ 253402300799 < s) : convertToSeconds (dateTimeS s) = none := by
  have hy : ¬ (0 ≤ (civilOfDays (s / 86400)).year ∧ (civilOfDays (s / 86400)).year ≤ 9999) := by
    rintro ⟨a, b⟩
    have := civil_year_out a b
    omega
  have hp : parse (dateTimeS s) = none := by
    unfold dateTimeS
    rw [unix_zero]
    unfold format
    simp only
    generalize (civilOfDays (s / 86400)).year = y at hy
    by_cases h0 : y < 0
    · rw [padYear, if_pos h0]
      exact parse_sign _
    · rw [padYear, if_neg h0]
      obtain ⟨yn, rfl⟩ := Int.eq_ofNat_of_zero_le (Int.not_lt.1 h0)
      have hbig : 10 ^ 4 ≤ yn := by omega
      rw [Int.natAbs_natCast]
      have hd : ∀ b ∈ pad 4 yn, isDigit b = true := by
        intro b hb
        unfold pad at hb
        rcases List.mem_append.1 hb with hb | hb
        · rw [List.eq_of_mem_replicate hb]; rfl
        · exact formatUint_digits yn b hb
      refine parse_digits5 hd ?_ _
      by_contra hl
      have h1 := decVal_lt (formatUint_digits yn)
      rw [formatUint_val] at h1
      have h2 : (formatUint yn).length ≤ 4 := by
        unfold pad at hl
        simp only [List.length_append, List.length_replicate] at hl
        omega
      have := Nat.pow_le_pow_right (n := 10) (by omega) h2
      omega
  unfold convertToSeconds
  rw [hp]
  rfl

example : dateTimeS (-62167219201) = (b!"-0001-12-31T23:59:59Z") := by decide +kernel
example : dateTimeS 253402300800 = (b!"10000-01-01T00:00:00Z") := by decide +kernel

end Verif.DateTime
