import Verif.DateTimeProps2

/-!
C57: `Seconds2DurPtrFloat64` (`/repo/mpd/ptrs.go` 19-24) and `Duration.Seconds` (`/repo/mpd/duration.go` 292-295).
-/
namespace Verif.DurFloat

open Verif Verif.DateTime

/-! ### Model -/

/-- `math.Round`: the nearest integer, halves away from zero.  (Standard library; exact on binary64.) -/
def roundAway (q : ℚ) : Int := if q < 0 then -⌊-q + 1 / 2⌋ else ⌊q + 1 / 2⌋

/-- `Seconds2DurPtrFloat64` (`/repo/mpd/ptrs.go` 19-24), in nanoseconds.  `seconds` is finite; the conversion to an integer is
modelled for values inside the int64 range, outside of which Go leaves it to the platform.  The product with a microsecond
wraps around. -/
def secondsF (x : ℚ) : Int := i64 (roundAway (flS (x * 1000000)) * 1000)

/-! ### Theorems -/

theorem round_err (q : ℚ) : |(roundAway q : ℚ) - q| ≤ 1 / 2 := by
  unfold roundAway
  split_ifs with h
  · have h1 := Int.floor_le (-q + 1 / 2)
    have h2 := Int.lt_floor_add_one (-q + 1 / 2)
    rw [abs_le]; push_cast; constructor <;> linarith
  · have h1 := Int.floor_le (q + 1 / 2)
    have h2 := Int.lt_floor_add_one (q + 1 / 2)
    rw [abs_le]; constructor <;> linarith

theorem round_near {q : ℚ} {n : Int} (h : |q - n| < 1 / 2) : roundAway q = n := by
  have h1 := abs_lt.mp h
  unfold roundAway
  split_ifs with hq
  · have : ⌊-q + 1 / 2⌋ = -n := by
      rw [Int.floor_eq_iff]; push_cast; constructor <;> linarith
    omega
  · rw [Int.floor_eq_iff]; constructor <;> linarith

theorem round_mono {p q : ℚ} (h : p ≤ q) : roundAway p ≤ roundAway q := by
  unfold roundAway
  split_ifs with h1 h2 h2
  · have := Int.floor_le_floor (show -q + 1 / 2 ≤ -p + 1 / 2 by linarith); omega
  · have a : 0 ≤ ⌊-p + 1 / 2⌋ := Int.floor_nonneg.mpr (by linarith)
    have b : 0 ≤ ⌊q + 1 / 2⌋ := Int.floor_nonneg.mpr (by linarith)
    omega
  · linarith
  · exact Int.floor_le_floor (by linarith)

theorem flS_mono {p q : ℚ} (h : p ≤ q) : flS p ≤ flS q := by
  unfold flS
  split_ifs with h1 h2 h2
  · have := fl_mono (show -q ≤ -p by linarith); linarith
  · have := fl_nonneg (-p); have := fl_nonneg q; linarith
  · linarith
  · exact fl_mono h

/-- Within ±9·10⁹ seconds nothing wraps around. -/
theorem secondsF_nowrap {x : ℚ} (h : |x| ≤ 9000000000) : secondsF x = roundAway (flS (x * 1000000)) * 1000 := by
  unfold secondsF
  apply i64_of_isI64
  have hx : |x * 1000000| ≤ 9000000000000000 := by rw [abs_mul]; norm_num; linarith
  have h1 := abs_le.mp (flS_err_small hx)
  have h2 := abs_le.mp (round_err (flS (x * 1000000)))
  have h3 := abs_le.mp hx
  have u : (roundAway (flS (x * 1000000)) : ℚ) < 9000000000000003 := by linarith
  have l : (-9000000000000003 : ℚ) < roundAway (flS (x * 1000000)) := by linarith
  have u' : roundAway (flS (x * 1000000)) < 9000000000000003 := by exact_mod_cast u
  have l' : -9000000000000003 < roundAway (flS (x * 1000000)) := by exact_mod_cast l
  unfold IsI64; omega

/-- C57: the duration is within half a microsecond, plus the rounding of one multiplication, of the number of seconds.
Both sides are in nanoseconds. -/
theorem C57_accuracy (x : ℚ) (h : |x| ≤ 9000000000) :
    |(secondsF x : ℚ) - x * 1000000000| ≤ 500 + |x| * 1000000000 * pow2 (-53) + 1000 * pow2 (-1075) := by
  rw [secondsF_nowrap h]
  have h1 := flS_err (x * 1000000)
  have h2 := abs_le.mp (round_err (flS (x * 1000000)))
  rw [abs_mul, abs_of_pos (show (0 : ℚ) < 1000000 by norm_num)] at h1
  have h1 := abs_le.mp h1
  rw [abs_le]; push_cast; constructor <;> linarith

/-- A number of seconds with more digits than a microsecond, and what it becomes. -/
example : |(-1234567891 / 1000000007 : ℚ)| ≤ 9000000000 ∧ secondsF (-1234567891 / 1000000007) = -1234568000 := by decide +kernel

/-- C57: a later time never gives a shorter duration. -/
theorem C57_monotone (x y : ℚ) (hx : |x| ≤ 9000000000) (hy : |y| ≤ 9000000000) (h : x ≤ y) : secondsF x ≤ secondsF y := by
  rw [secondsF_nowrap hx, secondsF_nowrap hy]
  have := round_mono (flS_mono (show x * 1000000 ≤ y * 1000000 by linarith))
  omega

/-- Two times less than a microsecond apart that are told apart, and two that are not. -/
example : (14 / 10000000 : ℚ) ≤ 16 / 10000000 ∧ secondsF (14 / 10000000) = 1000 ∧ secondsF (16 / 10000000) = 2000 ∧
    secondsF (12 / 10000000) = 1000 := by decide +kernel

/-- Half a unit in the last place bounds the rounding error of everything below a power of two. -/
theorem flS_err_pow {q : ℚ} {e : ℤ} (h : |q| < pow2 (e + 1)) (he : -1022 ≤ e) : |flS q - q| ≤ pow2 (e - 53) := by
  have key : ∀ r : ℚ, 0 ≤ r → r < pow2 (e + 1) → |fl r - r| ≤ pow2 (e - 53) := by
    intro r h0 h1
    rcases h0.eq_or_lt with h0 | h0
    · subst h0
      have : fl 0 = 0 := by unfold fl; simp
      rw [this]; simpa using (pow2_pos _).le
    · have hb : binExp r < e + 1 := pow2_lt_iff.mp (lt_of_le_of_lt (binExp_spec h0).1 h1)
      have hu : ulpExp r ≤ (e - 53) + 1 := by unfold ulpExp; omega
      have h2 := fl_err h0
      have h3 := pow2_mono hu
      rw [pow2_add] at h3
      have : pow2 1 = 2 := by decide +kernel
      rw [this] at h3
      linarith
  unfold flS
  split_ifs with hq
  · rw [abs_of_neg hq] at h
    have := key (-q) (by linarith) h
    rw [show -fl (-q) - q = -(fl (-q) - -q) by ring, abs_neg]; exact this
  · push Not at hq
    rw [abs_of_nonneg hq] at h
    exact key q hq h

/-- C57: a duration of whole microseconds up to 2^51 + 1 (71 years) survives `Seconds` and back.  Missing: longer durations;
the next one does not (`C57_refuted`). -/
theorem C57_roundtrip_partial (u : Int) (h : |u| ≤ 2 ^ 51 + 1) : secondsF (durSeconds (u * 1000)) = u * 1000 := by
  by_cases hs : |u| < 2 ^ 51
  swap
  · have : u = 2 ^ 51 ∨ u = 2 ^ 51 + 1 ∨ u = -2 ^ 51 ∨ u = -(2 ^ 51 + 1) := by
      rw [abs_le] at h; rw [abs_lt] at hs; omega
    rcases this with rfl | rfl | rfl | rfl <;> decide +kernel
  have hs' : |u| ≤ 2251799813685247 := by norm_num at hs; omega
  have hu' := abs_le.mp (show |(u : ℚ)| ≤ 2251799813685247 by exact_mod_cast hs')
  have hd : durSeconds (u * 1000) = flS (flS ((u * 1000 : Int) : ℚ) / 1000000000) := rfl
  rw [hd]
  push_cast
  have p61 : pow2 (60 + 1) = 2305843009213693952 := by decide +kernel
  have p60 : pow2 (60 - 53) = 128 := by decide +kernel
  have p32 : pow2 (31 + 1) = 4294967296 := by decide +kernel
  have p31 : pow2 (31 - 53) = 1 / 4194304 := by decide +kernel
  have p51 : pow2 (50 + 1) = 2251799813685248 := by decide +kernel
  have p50 : pow2 (50 - 53) = 1 / 8 := by decide +kernel
  have e1 := flS_err_pow (q := (u : ℚ) * 1000) (e := 60) (by rw [p61, abs_lt]; constructor <;> linarith) (by norm_num)
  rw [p60, abs_le] at e1
  generalize flS ((u : ℚ) * 1000) = a at *
  have e2 := flS_err_pow (q := a / 1000000000) (e := 31) (by rw [p32, abs_lt]; constructor <;> linarith) (by norm_num)
  rw [p31, abs_le] at e2
  generalize flS (a / 1000000000) = b at *
  have e3 := flS_err_pow (q := b * 1000000) (e := 50) (by rw [p51, abs_lt]; constructor <;> linarith) (by norm_num)
  rw [p50, abs_le] at e3
  have hn : |b| ≤ 9000000000 := by rw [abs_le]; constructor <;> linarith
  rw [secondsF_nowrap hn, round_near (n := u)]
  rw [abs_lt]; constructor <;> linarith

/-- The bound is met by a duration that is not a whole number of milliseconds. -/
example : |(-2234567890123457 : Int)| ≤ 2 ^ 51 + 1 ∧
    secondsF (durSeconds (-2234567890123457 * 1000)) = -2234567890123457000 := by decide +kernel

/-- C57 is false for longer durations, from the next microsecond on. -/
theorem C57_refuted : IsI64 ((2 ^ 51 + 2) * 1000) ∧ secondsF (durSeconds ((2 ^ 51 + 2) * 1000)) ≠ (2 ^ 51 + 2) * 1000 := by
  decide +kernel

/-- Parts of a microsecond are rounded: half a microsecond counts as one, away from zero. -/
example : secondsF (1 / 2000000) = 1000 ∧ secondsF (-1 / 2000000) = -1000 ∧ secondsF (1 / 4000000) = 0 := by decide +kernel

end Verif.DurFloat
