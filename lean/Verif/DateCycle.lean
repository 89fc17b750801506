import Verif.DateTimeProps2

/-!
# A date-time read as seconds and written again (property C81)

`DateTime.ConvertToSeconds` gives seconds as a float, `ConvertToDateTime` takes seconds as a float.  Here the
two are put one after the other (io.go:119-149).
-/

namespace Verif.DateTime
open Verif Strconv DateTimeSpec

/-- `ConvertToDateTime(dt.ConvertToSeconds())`, `none` when the text cannot be read (io.go:119-126, 142-149). -/
def cycle (dt : Bytes) : Option Bytes := (convertToSeconds dt).map dateTimeF

/-- The same, `n` times over. -/
def cycles : Nat → Bytes → Option Bytes
  | 0, dt => some dt
  | n + 1, dt => (cycle dt).bind (cycles n)

/-! ### The text depends on the milliseconds only -/

theorem digits_inj : ∀ {a b : Bytes}, (∀ x ∈ a, isDigit x = true) → (∀ x ∈ b, isDigit x = true) →
    a.length = b.length → decVal a = decVal b → a = b := by
  intro a
  induction a with
  | nil => intro b _ _ hl _; exact (List.length_eq_zero_iff.1 hl.symm).symm
  | cons d a ih =>
    intro b ha hb hl hv
    match b, hl with
    | e :: b, hl =>
      rw [Duration.decVal_cons, Duration.decVal_cons] at hv
      have hl' : a.length = b.length := by simpa using hl
      have h1 := Duration.decVal_lt (ds := a) (fun x hx => ha x (by simp [hx]))
      have h2 := Duration.decVal_lt (ds := b) (fun x hx => hb x (by simp [hx]))
      rw [hl'] at hv h1
      have hp : 0 < 10 ^ b.length := by positivity
      have hq : d.toNat - 48 = e.toNat - 48 := by
        have g1 := congrArg (· / 10 ^ b.length) hv
        rw [Nat.mul_comm, Nat.mul_add_div hp, Nat.div_eq_of_lt h1, Nat.mul_comm (e.toNat - 48),
          Nat.mul_add_div hp, Nat.div_eq_of_lt h2] at g1
        simpa using g1
      have hd := ha d (by simp)
      have he := hb e (by simp)
      simp only [isDigit, Bool.and_eq_true, decide_eq_true_eq] at hd he
      have hde : d = e := UInt8.toNat_inj.1 (by omega)
      subst hde
      rw [ih (fun x hx => ha x (by simp [hx])) (fun x hx => hb x (by simp [hx])) hl' (by omega)]

theorem take3 {n : Nat} (h : n < 10 ^ 9) : (pad 9 n).take 3 = pad 3 (n / 10 ^ 6) := by
  have hp := pad_digits (w := 9) (by omega) h
  have hq := pad_digits (w := 3) (n := n / 10 ^ 6) (by omega) (by omega)
  refine digits_inj (fun b hb => hp.2.1 b (List.mem_of_mem_take hb)) hq.2.1 (by rw [List.length_take, hp.1, hq.1]; rfl) ?_
  rw [decVal_take hp.2.1 (by rw [hp.1]; omega), hp.2.2, hp.1, hq.2.2]

theorem fracText_ms {n : Nat} (h : n < 10 ^ 9) : fracText n = fracText (n / 10 ^ 6 * 10 ^ 6) := by
  have h' : n / 10 ^ 6 * 10 ^ 6 < 10 ^ 9 := by omega
  unfold fracText
  by_cases h0 : n / 10 ^ 6 = 0
  · have hz : n / 10 ^ 6 * 10 ^ 6 = 0 := by rw [h0, Nat.zero_mul]
    rw [hz, if_pos rfl]
    by_cases hn : n = 0
    · rw [if_pos hn]
    · rw [if_neg hn, take3 h, h0]
      have : trimZeros (pad 3 0) = [] := by decide +kernel
      simp [this]
  · have hn : n ≠ 0 := by rintro rfl; exact h0 rfl
    have hz : n / 10 ^ 6 * 10 ^ 6 ≠ 0 := by omega
    rw [if_neg hn, if_neg hz, take3 h, take3 h', Nat.mul_div_cancel _ (by norm_num)]

theorem unix_unique {s n : Int} {t : Time} (h : t.nsec < 10 ^ 9) (e : t.sec * 10 ^ 9 + t.nsec = s * 10 ^ 9 + n) :
    unix s n = t := by
  have hu := unix_spec s n
  generalize unix s n = u at *
  obtain ⟨us, un⟩ := u
  obtain ⟨ts, tn⟩ := t
  simp only at *
  have : us = ts := by omega
  subst this
  have : un = tn := by omega
  rw [this]

/-- Writing any time is writing its whole milliseconds. -/
theorem format_ms {t : Time} (h : t.nsec < 10 ^ 9) : format t = dateTimeMS (t.sec * 1000 + (t.nsec / 10 ^ 6 : ℕ)) := by
  unfold dateTimeMS
  simp only
  have e : unix (Int.tdiv (t.sec * 1000 + (t.nsec / 10 ^ 6 : ℕ)) 1000)
      ((t.sec * 1000 + (t.nsec / 10 ^ 6 : ℕ) - 1000 * Int.tdiv (t.sec * 1000 + (t.nsec / 10 ^ 6 : ℕ)) 1000) * 1000000)
      = ⟨t.sec, t.nsec / 10 ^ 6 * 10 ^ 6⟩ := by
    apply unix_unique
    · simp only; omega
    · simp only; push_cast; ring
  rw [e]
  unfold format
  simp only
  rw [fracText_ms h]

theorem dateTimeS_ms (s : Int) : dateTimeS s = dateTimeMS (1000 * s) := by
  unfold dateTimeS
  rw [unix_zero, format_ms (by simp)]
  simp [Int.mul_comm]

/-- `ConvertToDateTime` writes a whole number of milliseconds, the float cropped. -/
theorem dateTimeF_ms (x : ℚ) (h1 : -62167219199 ≤ x) (h2 : x ≤ 253402300798) :
    ∃ m : ℤ, dateTimeF x = dateTimeMS m ∧ x - 1 / 1000 - 2 / 10 ^ 9 < (m : ℚ) / 1000 ∧ (m : ℚ) / 1000 < x + 2 / 10 ^ 9 := by
  unfold dateTimeF
  simp only
  have ht := truncQ_close x
  generalize truncQ x = s at *
  rw [abs_lt] at ht
  have s1 : (-62167219201 : ℤ) < s := by
    have : (-62167219201 : ℚ) < s := by linarith
    exact_mod_cast this
  have s2 : s < (253402300800 : ℤ) := by
    have : (s : ℚ) < 253402300800 := by linarith
    exact_mod_cast this
  rw [flS_int (s := s) (by rw [abs_lt]; omega)]
  have hd : |x - s| ≤ 1 := by rw [abs_le]; constructor <;> linarith
  have e1 := flS_err_small hd
  generalize flS (x - s) = y at *
  have hy : |y * 1000000000| ≤ 1000000001 := by
    rw [abs_le] at e1 hd ⊢
    constructor <;> norm_num at e1 ⊢ <;> linarith
  have e2 := flS_err_small hy
  generalize flS (y * 1000000000) = z at *
  have e3 := truncQ_close z
  generalize truncQ z = ns at *
  have hu := unix_spec s ns
  have near : |(s : ℚ) + ns / 10 ^ 9 - x| < 2 / 10 ^ 9 := by
    rw [abs_le] at e1 e2
    rw [abs_lt] at e3 ⊢
    constructor <;> norm_num at e1 e2 ⊢ <;> linarith
  generalize unix s ns = t at *
  have tq : (t.sec : ℚ) * 10 ^ 9 + t.nsec = s * 10 ^ 9 + ns := by exact_mod_cast hu.2
  rw [abs_lt] at near
  refine ⟨_, format_ms hu.1, ?_⟩
  have q1 : ((t.nsec / 10 ^ 6 : ℕ) : ℚ) * 10 ^ 6 ≤ t.nsec := by
    have : t.nsec / 10 ^ 6 * 10 ^ 6 ≤ t.nsec := by omega
    exact_mod_cast this
  have q2 : (t.nsec : ℚ) < ((t.nsec / 10 ^ 6 : ℕ) : ℚ) * 10 ^ 6 + 10 ^ 6 := by
    have : t.nsec < t.nsec / 10 ^ 6 * 10 ^ 6 + 10 ^ 6 := by omega
    exact_mod_cast this
  generalize t.nsec / 10 ^ 6 = q at *
  push_cast
  constructor <;> norm_num at near tq q1 q2 ⊢ <;> linarith

/-! ### C81 -/

/-- **C81**, any text. Whatever date-time is read, with any offset and any number of decimals, what is written
is the text of a whole number of milliseconds, at most a millisecond (and four microseconds) earlier and at
most four microseconds later (instants within the int64 nanosecond range). -/
theorem C81_any (txt : Bytes) (sec : Int) (num k : Nat) (h : Denotes txt sec num k)
    (h1 : -9223372036 ≤ sec) (h2 : sec < 9223372036) :
    ∃ m : ℤ, cycle txt = some (dateTimeMS m) ∧
      (sec + (num : ℚ) / 10 ^ k) - 1 / 1000 - 4 / 10 ^ 6 < (m : ℚ) / 1000 ∧
      (m : ℚ) / 1000 < (sec + (num : ℚ) / 10 ^ k) + 4 / 10 ^ 6 := by
  obtain ⟨v, hv, hc⟩ := C21_read_close txt sec num k h h1 h2
  have hn := denotes_lt h
  have hk : (0 : ℚ) < 10 ^ k := by positivity
  have n0 : 0 ≤ (num : ℚ) / 10 ^ k := by positivity
  have n1 : (num : ℚ) / 10 ^ k < 1 := by rw [div_lt_one hk]; exact_mod_cast hn
  have s1 : (-9223372036 : ℚ) ≤ sec := by exact_mod_cast h1
  have s2 : (sec : ℚ) < 9223372036 := by exact_mod_cast h2
  generalize (num : ℚ) / 10 ^ k = f at *
  rw [abs_le] at hc
  obtain ⟨m, hm, g1, g2⟩ := dateTimeF_ms v (by norm_num at hc ⊢; linarith) (by norm_num at hc ⊢; linarith)
  refine ⟨m, by unfold cycle; rw [hv, Option.map_some, hm], ?_, ?_⟩ <;> norm_num at hc g1 g2 ⊢ <;> linarith

/-- The round trip a user may expect: every date-time with milliseconds comes back as it was. -/
def C81_statement : Prop :=
  ∀ ms : Int, -9223372036000 ≤ ms → ms < 9223372036000 → cycle (dateTimeMS ms) = some (dateTimeMS ms)

/-- **C81**. A date-time with milliseconds comes back as it was or one millisecond early, never later. -/
theorem C81_near_partial (ms : Int) (h1 : -9223372036000 ≤ ms) (h2 : ms < 9223372036000) :
    cycle (dateTimeMS ms) = some (dateTimeMS ms) ∨ cycle (dateTimeMS ms) = some (dateTimeMS (ms - 1)) := by
  obtain ⟨sec, num, k, hD, hk, he⟩ := C21_text_MS ms (by omega) (by omega)
  have hn := denotes_lt hD
  have hkq : (0 : ℚ) < 10 ^ k := by positivity
  have n0 : 0 ≤ (num : ℚ) / 10 ^ k := by positivity
  have n1 : (num : ℚ) / 10 ^ k < 1 := by rw [div_lt_one hkq]; exact_mod_cast hn
  have m1 : (-9223372036000 : ℚ) ≤ ms := by exact_mod_cast h1
  have m2 : (ms : ℚ) < 9223372036000 := by exact_mod_cast h2
  have s1 : -9223372036 ≤ sec := by
    have : (-9223372037 : ℚ) < sec := by linarith
    have : (-9223372037 : ℤ) < sec := by exact_mod_cast this
    omega
  have s2 : sec < 9223372036 := by
    have : (sec : ℚ) < 9223372036 := by linarith
    exact_mod_cast this
  obtain ⟨m, hm, g1, g2⟩ := C81_any _ _ _ _ hD s1 s2
  rw [← he] at g1 g2
  have a1 : ms - 2 < m := by
    have : (ms : ℚ) - 2 < m := by norm_num at g1 ⊢; linarith
    exact_mod_cast this
  have a2 : m < ms + 1 := by
    have : (m : ℚ) < ms + 1 := by norm_num at g2 ⊢; linarith
    exact_mod_cast this
  rcases (by omega : m = ms ∨ m = ms - 1) with rfl | rfl
  · exact Or.inl hm
  · exact Or.inr hm

theorem truncQ_int (s : Int) : truncQ (s : ℚ) = s := by
  unfold truncQ
  split_ifs
  · have : -(s : ℚ) = ((-s : ℤ) : ℚ) := by push_cast; rfl
    rw [this, Int.floor_intCast]; omega
  · exact Int.floor_intCast s

theorem dateTimeF_int {s : Int} (h : |s| < 2 ^ 53) : dateTimeF (s : ℚ) = dateTimeS s := by
  unfold dateTimeF dateTimeS
  simp only
  rw [truncQ_int, flS_int h, sub_self]
  have : truncQ (flS (flS 0 * 1000000000)) = 0 := by decide +kernel
  rw [this]

/-- **C81**, whole seconds (to the year 2116) come back as they were. -/
theorem C81_whole_partial (s : Int) (h1 : -4611686018 ≤ s) (h2 : s ≤ 4611686018) :
    cycle (dateTimeS s) = some (dateTimeS s) := by
  unfold cycle
  rw [C21_seconds_partial s h1 h2, Option.map_some, dateTimeF_int (by rw [abs_lt]; omega)]

theorem cycles_snoc (n : Nat) (t : Bytes) : cycles (n + 1) t = (cycles n t).bind cycle := by
  induction n generalizing t with
  | zero => show (cycle t).bind some = _; simp [cycles]
  | succ n ih =>
    show (cycle t).bind (cycles (n + 1)) = ((cycle t).bind (cycles n)).bind cycle
    cases cycle t with
    | none => rfl
    | some u => exact ih u

/-- **C81**, many times over: however often it is done, the time stays within its own second and is never
moved forward (to the year 2116). -/
theorem C81_second_partial (ms : Int) (h1 : -4611686018000 ≤ ms) (h2 : ms ≤ 4611686018000) (n : Nat) :
    ∃ m, cycles n (dateTimeMS ms) = some (dateTimeMS m) ∧ m ≤ ms ∧ m / 1000 = ms / 1000 := by
  induction n with
  | zero => exact ⟨ms, rfl, le_refl _, rfl⟩
  | succ n ih =>
    obtain ⟨m, hm, a, b⟩ := ih
    rw [cycles_snoc, hm, Option.bind_some]
    by_cases hz : m % 1000 = 0
    · refine ⟨m, ?_, a, b⟩
      have := C81_whole_partial (m / 1000) (by omega) (by omega)
      rw [dateTimeS_ms, (by omega : 1000 * (m / 1000) = m)] at this
      exact this
    · rcases C81_near_partial m (by omega) (by omega) with e | e
      · exact ⟨m, e, a, b⟩
      · exact ⟨m - 1, e, by omega, by omega⟩

/-- **C81**, many times over: after at most 999 rounds the text no longer changes. -/
theorem C81_stops_partial (ms : Int) (h1 : -4611686018000 ≤ ms) (h2 : ms ≤ 4611686018000) :
    ∃ n m, n ≤ 999 ∧ cycles n (dateTimeMS ms) = some (dateTimeMS m) ∧ m ≤ ms ∧ m / 1000 = ms / 1000 ∧
      cycle (dateTimeMS m) = some (dateTimeMS m) := by
  have key : ∀ (d : Nat) (ms : Int), -4611686018000 ≤ ms → ms ≤ 4611686018000 → ms % 1000 = d →
      ∃ n m, n ≤ d ∧ cycles n (dateTimeMS ms) = some (dateTimeMS m) ∧ m ≤ ms ∧ m / 1000 = ms / 1000 ∧
        cycle (dateTimeMS m) = some (dateTimeMS m) := by
    intro d
    induction d with
    | zero =>
      intro ms h1 h2 hd
      have := C81_whole_partial (ms / 1000) (by omega) (by omega)
      rw [dateTimeS_ms, (by omega : 1000 * (ms / 1000) = ms)] at this
      exact ⟨0, ms, le_refl _, rfl, le_refl _, rfl, this⟩
    | succ d ih =>
      intro ms h1 h2 hd
      rcases C81_near_partial ms (by omega) (by omega) with e | e
      · exact ⟨0, ms, by omega, rfl, le_refl _, rfl, e⟩
      · obtain ⟨n, m, a1, a2, a3, a4, a5⟩ := ih (ms - 1) (by omega) (by omega) (by omega)
        refine ⟨n + 1, m, by omega, ?_, by omega, by omega, a5⟩
        show (cycle _).bind (cycles n) = _
        rw [e]; exact a2
  obtain ⟨n, m, a, b⟩ := key (ms % 1000).toNat ms h1 h2 (by omega)
  exact ⟨n, m, by omega, b⟩

/-- **C81** as a user may expect it is false: one millisecond past the new year of 2020 is written back as the
new year. -/
theorem C81_refuted : ¬ C81_statement := by
  intro h
  have := h 1577836800001 (by norm_num) (by norm_num)
  revert this
  have e : cycle (dateTimeMS 1577836800001) = some (b!"2020-01-01T00:00:00Z") := by decide +kernel
  have e' : dateTimeMS 1577836800001 = (b!"2020-01-01T00:00:00.001Z") := by decide +kernel
  rw [e, e']
  decide

/-- The loss adds up: six rounds lose six milliseconds. -/
theorem C81_drift_refuted : cycles 6 (b!"2020-01-01T00:00:00.045Z") = some (b!"2020-01-01T00:00:00.039Z") := by
  decide +kernel

/-- A millisecond that survives, one before 1970, and a text with an offset and more decimals. -/
example : cycle (b!"2020-01-01T00:00:00.003Z") = some (b!"2020-01-01T00:00:00.003Z") := by decide +kernel
example : cycle (b!"1969-12-31T23:59:59.75Z") = some (b!"1969-12-31T23:59:59.75Z") := by decide +kernel
example : cycle (b!"2020-01-01T01:00:00.0035+01:00") = some (b!"2020-01-01T00:00:00.003Z") := by decide +kernel

end Verif.DateTime
