import Verif.DateTime
import Verif.DateTimeSpec
import Verif.DurationProps
import Mathlib.Tactic.IntervalCases

namespace Verif.DateTime
open Verif Strconv DateTimeSpec

/-! ### Calendar -/

theorem isLeap_iff (y : Int) : isLeap y = true ↔ Leap y := by
  unfold isLeap Leap
  simp only [Bool.and_eq_true, Bool.or_eq_true, decide_eq_true_eq]
  omega

theorem daysIn_eq {m : Nat} (h1 : 1 ≤ m) (h2 : m ≤ 12) (y : Int) : daysIn m y = lastDay y m := by
  have := isLeap_iff y
  interval_cases m <;> simp [daysIn, lastDay, monthLen]
  by_cases h : Leap y
  · simp [h, this.mpr h]
  · have : isLeap y = false := by cases hh : isLeap y; rfl; exact absurd (this.mp hh) h
    simp [h, this]

def dno (c : Date) : Int := daysOfCivil ⟨c.y, c.m, c.d⟩

theorem lastDay_vals (y : Int) :
    lastDay y 1 = 31 ∧ lastDay y 2 = (if Leap y then 29 else 28) ∧ lastDay y 3 = 31 ∧ lastDay y 4 = 30 ∧
    lastDay y 5 = 31 ∧ lastDay y 6 = 30 ∧ lastDay y 7 = 31 ∧ lastDay y 8 = 31 ∧ lastDay y 9 = 30 ∧
    lastDay y 10 = 31 ∧ lastDay y 11 = 30 ∧ lastDay y 12 = 31 := by
  refine ⟨rfl, ?_, rfl, rfl, rfl, rfl, rfl, rfl, rfl, rfl, rfl, rfl⟩
  by_cases h : Leap y <;> simp [lastDay, monthLen, h]

theorem lastDay_pos {m : Nat} (h1 : 1 ≤ m) (h2 : m ≤ 12) (y : Int) : 1 ≤ lastDay y m := by
  have := lastDay_vals y
  interval_cases m <;> (try split_ifs at this) <;> omega

theorem next_valid {c : Date} (h : c.Valid) : c.next.Valid := by
  obtain ⟨h1, h2, h3, h4⟩ := h
  unfold Date.next
  split_ifs with ha hb
  · exact ⟨h1, h2, by simp, by simp only; omega⟩
  · exact ⟨by simp, by simp only; omega, by simp, lastDay_pos (m := c.m + 1) (by omega) (by omega) _⟩
  · exact ⟨by simp, by simp, by simp, lastDay_pos (m := 1) (by omega) (by omega) _⟩

theorem dno_next {c : Date} (h : c.Valid) : dno c.next = dno c + 1 := by
  obtain ⟨y, m, d⟩ := c
  obtain ⟨h1, h2, h3, h4⟩ := h
  simp only at h1 h2 h3 h4
  have hl := lastDay_vals y
  unfold Date.next dno daysOfCivil
  simp only
  by_cases ha : d < lastDay y m
  · simp only [if_pos ha]; push_cast; omega
  · have hd : d = lastDay y m := by omega
    simp only [if_neg ha]
    rw [hd]
    by_cases hle : Leap y
    · simp only [if_pos hle] at hl
      unfold Leap at hle
      interval_cases m <;> simp <;> omega
    · simp only [if_neg hle] at hl
      unfold Leap at hle
      interval_cases m <;> simp <;> omega

/-- Month and day inside a year that starts on 1 March. -/
theorem doy_spec {doy : Int} (h0 : 0 ≤ doy) (h1 : doy ≤ 365) :
    ∃ mp : Int, (5 * doy + 2) / 153 = mp ∧ 0 ≤ mp ∧ mp ≤ 11 ∧ (153 * mp + 2) / 5 ≤ doy ∧
      (mp ≤ 10 → doy < (153 * (mp + 1) + 2) / 5) := by
  refine ⟨_, rfl, ?_, ?_, ?_, ?_⟩ <;> omega

/-- The date of a day number is a calendar date with that day number. -/
theorem civil_spec (z : Int) :
    (Date.Valid ⟨(civilOfDays z).year, (civilOfDays z).month, (civilOfDays z).day⟩) ∧
    daysOfCivil (civilOfDays z) = z := by
  unfold civilOfDays
  simp only
  generalize hn : z + 719468 = n
  generalize hera : n / 146097 = era
  generalize hdoe : n % 146097 = doe
  generalize hn100 : (if doe / 36524 = 4 then 3 else doe / 36524) = n100
  have e1 : 0 ≤ n100 ∧ n100 ≤ 3 ∧ 0 ≤ doe - 36524 * n100 ∧
      (n100 ≤ 2 → doe - 36524 * n100 ≤ 36523) ∧ doe - 36524 * n100 ≤ 36524 := by
    subst hn100; split_ifs <;> omega
  generalize hr1 : doe - 36524 * n100 = r1 at *
  generalize hn4 : r1 / 1461 = n4
  generalize hr2 : r1 - 1461 * n4 = r2
  generalize hn1 : (if r2 / 365 = 4 then 3 else r2 / 365) = n1
  have e2 : 0 ≤ n4 ∧ n4 ≤ 24 ∧ 0 ≤ r2 ∧ r2 ≤ 1460 ∧ (n4 = 24 → n100 ≤ 2 → r2 ≤ 1459) := by
    omega
  have e3 : 0 ≤ n1 ∧ n1 ≤ 3 ∧ 0 ≤ r2 - 365 * n1 ∧ r2 - 365 * n1 ≤ 365 ∧
      (n1 ≤ 2 → r2 - 365 * n1 ≤ 364) ∧ (n4 = 24 → n100 ≤ 2 → r2 - 365 * n1 ≤ 364) := by
    subst hn1; split_ifs <;> omega
  generalize hdoy : r2 - 365 * n1 = doy at *
  obtain ⟨mp, hmp, m0, m11, md, md2⟩ := doy_spec e3.2.2.1 e3.2.2.2.1
  rw [hmp]
  generalize hy : 400 * era + 100 * n100 + 4 * n4 + n1 = y
  have hz : z = 365 * y + y / 4 - y / 100 + y / 400 + doy - 719468 := by
    subst hy
    have : (400 * era + 100 * n100 + 4 * n4 + n1) / 4 = 100 * era + 25 * n100 + n4 := by omega
    have : (400 * era + 100 * n100 + 4 * n4 + n1) / 100 = 4 * era + n100 := by omega
    have : (400 * era + 100 * n100 + 4 * n4 + n1) / 400 = era := by omega
    omega
  have hleap : doy = 365 → Leap (y + 1) := by
    intro h
    have : n1 = 3 := by omega
    have : n4 ≤ 23 ∨ n100 = 3 := by omega
    subst hy
    unfold Leap
    rcases this with h | h
    · left; omega
    · by_cases h4 : n4 ≤ 23
      · left; omega
      · right; omega
  have hv1 := lastDay_vals y
  have hv2 := lastDay_vals (y + 1)
  unfold Date.Valid daysOfCivil
  simp only
  clear hn hera hdoe hn100 hn4 hr1 hr2 hn1 hdoy e1 e2 hmp hy
  by_cases h365 : doy = 365
  · have hL := hleap h365
    simp only [if_pos hL] at hv2
    clear hv1
    interval_cases mp <;> simp <;> omega
  · have : 28 ≤ lastDay (y+1) 2 := by rw [hv2.2.1]; split_ifs <;> omega
    clear hleap
    interval_cases mp <;> simp <;> omega

/-- Days before 1 March of year `y`, up to a constant. -/
def yearBase (y : Int) : Int := 365 * y + y / 4 - y / 100 + y / 400

theorem dno_doy {c : Date} (h : c.Valid) : ∃ y' mp doy : Int,
    y' = (if c.m ≤ 2 then c.y - 1 else c.y) ∧ mp = (if c.m ≤ 2 then (c.m : Int) + 9 else (c.m : Int) - 3) ∧
    dno c = yearBase y' + doy - 719468 ∧ 0 ≤ doy ∧ doy ≤ 365 ∧ (doy = 365 → Leap (y' + 1)) ∧
    (5 * doy + 2) / 153 = mp ∧ (c.d : Int) = doy - (153 * mp + 2) / 5 + 1 := by
  obtain ⟨y, m, d⟩ := c
  obtain ⟨h1, h2, h3, h4⟩ := h
  simp only at h1 h2 h3 h4
  have hl := lastDay_vals y
  refine ⟨_, _, (153 * (if m ≤ 2 then (m : Int) + 9 else (m : Int) - 3) + 2) / 5 + d - 1, rfl, rfl, ?_, ?_⟩
  · simp only [dno, daysOfCivil, yearBase]; ring
  · simp only
    by_cases hle : Leap y
    · simp only [if_pos hle] at hl
      interval_cases m <;> simp <;> first | omega | (refine ⟨by omega, by omega, fun _ => hle, by omega⟩)
    · simp only [if_neg hle] at hl
      interval_cases m <;> simp <;> omega

theorem yearBase_mono {a b : Int} (h : a ≤ b) : yearBase a ≤ yearBase b := by
  unfold yearBase
  have h1 : a / 4 ≤ b / 4 := Int.ediv_le_ediv (by decide) h
  have h2 : a / 400 ≤ b / 400 := Int.ediv_le_ediv (by decide) h
  have h3 : b / 100 - a / 100 ≤ b - a := by omega
  omega

theorem yearBase_succ (a : Int) : yearBase a + 365 + (if Leap (a + 1) then 1 else 0) ≤ yearBase (a + 1) := by
  unfold yearBase
  have g1 : a / 4 ≤ (a+1) / 4 := Int.ediv_le_ediv (by decide) (by omega)
  have g2 : a / 400 ≤ (a+1) / 400 := Int.ediv_le_ediv (by decide) (by omega)
  by_cases hl : Leap (a + 1)
  · rw [if_pos hl]
    rcases hl with ⟨h4, h100⟩ | h400
    · have : a / 4 + 1 = (a+1) / 4 := by omega
      have : a / 100 = (a+1) / 100 := by omega
      omega
    · have : a / 4 + 1 = (a+1) / 4 := by omega
      have : a / 400 + 1 = (a+1) / 400 := by omega
      have : (a+1) / 100 ≤ a / 100 + 1 := by omega
      omega
  · rw [if_neg hl]
    by_cases h100 : 100 ∣ a + 1
    · have : a / 4 + 1 = (a+1) / 4 := by omega
      have : (a+1) / 100 ≤ a / 100 + 1 := by omega
      omega
    · have : a / 100 = (a+1) / 100 := by omega
      omega

theorem yearBase_lt {a b : Int} (h : a < b) : yearBase a + 365 + (if Leap (a + 1) then 1 else 0) ≤ yearBase b :=
  (yearBase_succ a).trans (yearBase_mono h)

theorem dno_inj {c c' : Date} (h : c.Valid) (h' : c'.Valid) (e : dno c = dno c') : c = c' := by
  obtain ⟨y, mp, doy, e1, e2, e3, e4, e5, e6, e7, e8⟩ := dno_doy h
  obtain ⟨y', mp', doy', e1', e2', e3', e4', e5', e6', e7', e8'⟩ := dno_doy h'
  have hy : y = y' := by
    rcases lt_trichotomy y y' with hh | hh | hh
    · have := yearBase_lt hh
      by_cases hl : Leap (y + 1)
      · rw [if_pos hl] at this; omega
      · rw [if_neg hl] at this
        have : doy ≠ 365 := fun he => hl (e6 he)
        omega
    · exact hh
    · have := yearBase_lt hh
      by_cases hl : Leap (y' + 1)
      · rw [if_pos hl] at this; omega
      · rw [if_neg hl] at this
        have : doy' ≠ 365 := fun he => hl (e6' he)
        omega
  subst hy
  have hd : doy = doy' := by omega
  subst hd
  have hm : mp = mp' := by omega
  subst hm
  obtain ⟨y1, m1, d1⟩ := c
  obtain ⟨y2, m2, d2⟩ := c'
  have hv := h.1; have hv2 := h.2.1; have hv' := h'.1; have hv2' := h'.2.1
  simp only at *
  have : m1 = m2 := by split_ifs at e2 e2' <;> omega
  subst this
  have : y1 = y2 := by split_ifs at e1 e1' <;> omega
  subst this
  have : d1 = d2 := by omega
  subst this
  rfl

def civilDate (z : Int) : Date := ⟨(civilOfDays z).year, (civilOfDays z).month, (civilOfDays z).day⟩

theorem civilDate_succ (z : Int) : (civilDate z).next = civilDate (z + 1) := by
  have h := civil_spec z
  have h' := civil_spec (z + 1)
  apply dno_inj (next_valid h.1) h'.1
  rw [dno_next h.1]
  exact (congrArg (· + 1) h.2).trans h'.2.symm

theorem dayNo_civil (z : Int) : DayNo (civilDate z) z := by
  induction z using Int.induction_on with
  | zero =>
    have : civilDate 0 = ⟨1970, 1, 1⟩ := by decide
    rw [this]; exact .epoch
  | succ k ih => rw [← civilDate_succ]; exact .next ih
  | pred k ih =>
    refine .prev (civil_spec _).1 ?_
    rw [civilDate_succ]
    have : (-(k:Int) - 1 + 1) = -k := by omega
    rw [this]; exact ih

/-- The successor rule determines the day number, and the model computes it. -/
theorem dayNo_iff (c : Date) (n : Int) : DayNo c n ↔ c.Valid ∧ dno c = n := by
  constructor
  · intro h
    induction h with
    | epoch => exact ⟨by decide, by decide⟩
    | next _ ih => exact ⟨next_valid ih.1, by rw [dno_next ih.1, ih.2]⟩
    | prev hv _ ih => exact ⟨hv, by have := dno_next hv; omega⟩
  · rintro ⟨hv, rfl⟩
    have : civilDate (dno c) = c := dno_inj (civil_spec _).1 hv (civil_spec _).2
    have h2 := dayNo_civil (dno c)
    rw [this] at h2
    exact h2

/-! ### Text -/

theorem decVal_app (a b : Bytes) : decVal (a ++ b) = decVal a * 10 ^ b.length + decVal b := by
  unfold decVal
  rw [List.foldl_append]
  exact Duration.decVal_foldl _ _

theorem decVal_lt {s : Bytes} (h : ∀ b ∈ s, isDigit b = true) : decVal s < 10 ^ s.length := by
  induction s using List.reverseRecOn with
  | nil => simp [decVal]
  | append_singleton s d ih =>
    have h1 := ih (fun b hb => h b (by simp [hb]))
    have h2 := h d (by simp)
    unfold isDigit at h2
    simp at h2
    rw [decVal_snoc, List.length_append, pow_add]
    simp
    omega

theorem decVal_zeros (k : Nat) (s : Bytes) : decVal (List.replicate k ch%'0' ++ s) = decVal s := by
  rw [decVal_app]
  have : decVal (List.replicate k ch%'0') = 0 := by
    induction k with
    | zero => rfl
    | succ k ih => rw [List.replicate_succ', decVal_snoc, ih]; decide
  rw [this]; simp

theorem formatUint_len (n w : Nat) (h : n < 10 ^ w) (hw : 1 ≤ w) : (formatUint n).length ≤ w := by
  induction w generalizing n with
  | zero => omega
  | succ w ih =>
    unfold formatUint
    split
    · simp
    · rename_i hn
      have : 1 ≤ w := by
        rcases Nat.eq_zero_or_pos w with rfl | h'
        · simp at h; omega
        · exact h'
      have := ih (n / 10) (by rw [pow_succ] at h; omega) this
      simp; omega

theorem pad_digits {w n : Nat} (hw : 1 ≤ w) (h : n < 10 ^ w) : Digits w (pad w n) n := by
  have hl := formatUint_len n w h hw
  unfold pad
  simp only
  refine ⟨by simp; omega, ?_, ?_⟩
  · intro b hb
    rcases List.mem_append.1 hb with hb | hb
    · rw [List.eq_of_mem_replicate hb]; decide
    · exact formatUint_digits n b hb
  · rw [decVal_zeros, formatUint_val]

theorem digits2 {s : Bytes} {n : Nat} (h : Digits 2 s n) :
    ∃ a b, s = [a, b] ∧ isDigit a = true ∧ isDigit b = true ∧ n = digitVal a * 10 + digitVal b := by
  obtain ⟨h1, h2, h3⟩ := h
  match s, h1 with
  | [a, b], _ =>
    refine ⟨a, b, rfl, h2 a (by simp), h2 b (by simp), ?_⟩
    rw [← h3]; simp [decVal, digitVal]; omega

theorem getnum_digits {s : Bytes} {n : Nat} (f : Bool) (h : Digits 2 s n) (rest : Bytes) :
    getnum f (s ++ rest) = some (n, rest) := by
  obtain ⟨a, b, rfl, ha, hb, rfl⟩ := digits2 h
  simp [getnum, ha, hb]

theorem numIn_digits {s : Bytes} {n lo hi : Nat} (f : Bool) (h : Digits 2 s n) (h1 : lo ≤ n) (h2 : n ≤ hi)
    (rest : Bytes) : numIn f lo hi (s ++ rest) = some (n, rest) := by
  unfold numIn
  rw [getnum_digits f h]
  simp [h1, h2]

theorem year4_digits {s : Bytes} {n : Nat} (h : Digits 4 s n) (rest : Bytes) :
    year4 (s ++ rest) = some (n, rest) := by
  obtain ⟨h1, h2, h3⟩ := h
  match s, h1 with
  | [a, b, c, d], _ =>
    simp only [List.cons_append, List.nil_append, year4]
    rw [h2 a (by simp), h2 b (by simp), h2 c (by simp), h2 d (by simp)]
    simp only [Bool.and_self, if_true]
    rw [← h3]; simp [decVal, digitVal]; omega

theorem digits_lt {w : Nat} {s : Bytes} {n : Nat} (h : Digits w s n) : n < 10 ^ w := by
  rw [← h.2.2, ← h.1]; exact decVal_lt h.2.1

theorem zone_spec {z : Bytes} {off : Int} (h : Zone z off) : zone z = some (off, []) := by
  cases h with
  | utc => rfl
  | plus hh hm h1 h2 =>
    obtain ⟨a, b, rfl, ha, hb, rfl⟩ := digits2 hh
    obtain ⟨c, d, rfl, hc, hd, rfl⟩ := digits2 hm
    have g1 := getnum_digits true hh []
    have g2 := getnum_digits true hm []
    simp only [List.append_nil] at g1 g2
    unfold zone
    simp only [List.cons_append, List.nil_append]
    rw [if_neg (by decide), if_pos trivial, g1, g2]
    simp only
    rw [if_pos ⟨by omega, by omega⟩, if_pos trivial]
    congr 2; push_cast; ring
  | minus hh hm h1 h2 =>
    obtain ⟨a, b, rfl, ha, hb, rfl⟩ := digits2 hh
    obtain ⟨c, d, rfl, hc, hd, rfl⟩ := digits2 hm
    have g1 := getnum_digits true hh []
    have g2 := getnum_digits true hm []
    simp only [List.append_nil] at g1 g2
    unfold zone
    simp only [List.cons_append, List.nil_append]
    rw [if_neg (by decide), if_pos trivial, g1, g2]
    simp only
    rw [if_pos ⟨by omega, by omega⟩, if_neg (by decide), if_pos trivial]
    congr 2; push_cast; ring

theorem zone_head {z : Bytes} {off : Int} (h : Zone z off) :
    ∃ c cs, z = c :: cs ∧ isDigit c = false ∧ c ≠ ch%'.' ∧ c ≠ ch%',' := by
  cases h with
  | utc => exact ⟨_, _, rfl, by decide, by decide, by decide⟩
  | plus => exact ⟨_, _, rfl, by decide, by decide, by decide⟩
  | minus => exact ⟨_, _, rfl, by decide, by decide, by decide⟩

theorem takeWhile_digits {ds : Bytes} (h : ∀ b ∈ ds, isDigit b = true) {c : UInt8} (hc : isDigit c = false)
    (cs : Bytes) : (ds ++ c :: cs).takeWhile isDigit = ds ∧ (ds ++ c :: cs).dropWhile isDigit = c :: cs := by
  induction ds with
  | nil => simp [hc]
  | cons d ds ih =>
    have := ih (fun b hb => h b (by simp [hb]))
    simp [h d (by simp), this]

theorem decVal_take {s : Bytes} (h : ∀ b ∈ s, isDigit b = true) {k : Nat} (hk : k ≤ s.length) :
    decVal (s.take k) = decVal s / 10 ^ (s.length - k) := by
  have e : decVal s = decVal (s.take k) * 10 ^ (s.length - k) + decVal (s.drop k) := by
    conv_lhs => rw [← List.take_append_drop k s]
    rw [decVal_app]; simp
  have hlt : decVal (s.drop k) < 10 ^ (s.length - k) := by
    have := decVal_lt (s := s.drop k) (fun b hb => h b (List.mem_of_mem_drop hb))
    simpa using this
  rw [e, Nat.add_comm, Nat.mul_comm, Nat.add_mul_div_left _ _ (by positivity), Nat.div_eq_of_lt hlt]
  simp

theorem frac_spec {f z : Bytes} {num k : Nat} {off : Int} (hf : Frac f num k) (hz : Zone z off) :
    fracNanos (f ++ z) = (num * 10 ^ 9 / 10 ^ k, z) := by
  obtain ⟨c, cs, rfl, h1, h2, h3⟩ := zone_head hz
  cases hf with
  | none =>
    simp only [List.nil_append]
    unfold fracNanos
    cases cs with
    | nil => simp
    | cons d ds => simp [h2, h3]
  | @some ds hne hd =>
    obtain ⟨d, ds', rfl⟩ := List.exists_cons_of_ne_nil hne
    simp only [List.cons_append]
    unfold fracNanos
    simp only
    rw [if_pos ⟨Or.inl trivial, hd d (by simp)⟩]
    have := takeWhile_digits hd h1 cs
    simp only [List.cons_append] at this
    rw [this.1, this.2]
    congr 1
    generalize hS : d :: ds' = S at *
    by_cases hk : S.length ≤ 9
    · rw [List.take_of_length_le hk]
      have : 10 ^ 9 = 10 ^ (9 - S.length) * 10 ^ S.length := by rw [← pow_add]; congr 1; omega
      rw [this, ← Nat.mul_assoc, Nat.mul_div_cancel _ (by positivity)]
    · rw [decVal_take hd (by omega)]
      have hl : (S.take 9).length = 9 := by simp; omega
      rw [hl]
      have : 10 ^ S.length = 10 ^ 9 * 10 ^ (S.length - 9) := by rw [← pow_add]; congr 1; omega
      rw [this, Nat.mul_comm (decVal S), Nat.mul_div_mul_left _ _ (by positivity)]
      simp

/-- Reading: every date-time text is read as the instant it denotes, cropped to nanoseconds. -/
theorem C21_read (txt : Bytes) (sec : Int) (num k : Nat) (h : Denotes txt sec num k) :
    parse txt = some ⟨sec, num * 10 ^ 9 / 10 ^ k⟩ := by
  obtain ⟨ys, ms, ds, hs, mis, ss, f, z, y, m, d, h, mi, s, off, day, rfl, hy, hm, hd, hh, hmi, hs, hf, hz,
    h23, m59, s59, hv, hday, rfl⟩ := h
  unfold parse
  have d99 := digits_lt hd
  have hv' := hv
  obtain ⟨v1, v2, v3, v4⟩ := hv
  simp only at v1 v2 v3 v4
  have hc := (dayNo_iff _ _).1 hday
  simp only [year4_digits hy, lit, if_true, Option.bind_eq_bind, Option.bind_some,
    numIn_digits true hm v1 v2, numIn_digits true hd (Nat.zero_le _) (show d ≤ 99 by omega),
    numIn_digits false hh (Nat.zero_le _) h23, numIn_digits true hmi (Nat.zero_le _) m59,
    numIn_digits true hs (Nat.zero_le _) s59, frac_spec hf hz, zone_spec hz]
  rw [if_neg (by simp), if_neg (by rw [daysIn_eq v1 v2]; omega)]
  have : daysOfCivil ⟨y, m, d⟩ = day := hc.2
  rw [this]
  congr 2
  push_cast; ring

/-! ### Writing -/

theorem civil_year {z : Int} (h1 : -719528 ≤ z) (h2 : z ≤ 2932896) :
    0 ≤ (civilOfDays z).year ∧ (civilOfDays z).year ≤ 9999 := by
  have hc := civil_spec z
  obtain ⟨y', mp, doy, e1, e2, e3, e4, e5, e6, e7, e8⟩ := dno_doy hc.1
  have hz : dno ⟨(civilOfDays z).year, (civilOfDays z).month, (civilOfDays z).day⟩ = z := hc.2
  rw [hz] at e3
  have hm1 := hc.1.1
  have hm2 := hc.1.2.1
  simp only at *
  have b1 : yearBase (-1) = -366 := by decide
  have b2 : yearBase 9999 = 3652059 := by decide
  constructor
  · by_contra hneg
    have hy : y' ≤ -1 := by split_ifs at e1 <;> omega
    by_cases hy' : y' = -1
    · subst hy'
      have : ¬ (civilOfDays z).month ≤ 2 := by intro hh; rw [if_pos hh] at e1; omega
      rw [if_neg this] at e2
      omega
    · have := yearBase_lt (a := y') (b := -1) (by omega)
      have : doy = 365 → Leap (y' + 1) := e6
      by_cases hl : Leap (y' + 1)
      · simp only [if_pos hl] at *; omega
      · have : doy ≠ 365 := fun hh => hl (e6 hh)
        simp only [if_neg hl] at *; omega
  · by_contra hneg
    have hy : 9999 ≤ y' := by split_ifs at e1 <;> omega
    have hb := yearBase_mono hy
    by_cases hy' : y' = 9999
    · subst hy'
      have : (civilOfDays z).month ≤ 2 := by
        by_contra hh; rw [if_neg hh] at e1; omega
      rw [if_pos this] at e2
      omega
    · have hb := yearBase_lt (a := 9999) (b := y') (by omega)
      have : (0:Int) ≤ (if Leap (9999 + 1) then 1 else 0) := by split_ifs <;> omega
      omega

theorem trimZeros_spec (s : Bytes) : ∃ k, s = trimZeros s ++ List.replicate k ch%'0' := by
  refine ⟨(s.reverse.takeWhile (· = ch%'0')).length, ?_⟩
  have h1 := List.takeWhile_append_dropWhile (p := fun x : UInt8 => decide (x = ch%'0')) (l := s.reverse)
  have h2 : (s.reverse.takeWhile (· = ch%'0')) =
      List.replicate (s.reverse.takeWhile (· = ch%'0')).length ch%'0' := by
    rw [List.eq_replicate_iff]
    refine ⟨rfl, fun b hb => ?_⟩
    have := List.all_eq_true.1 (List.all_takeWhile (p := fun x : UInt8 => decide (x = ch%'0'))) b hb
    simpa using this
  have h3 := congrArg List.reverse h1
  rw [List.reverse_append, List.reverse_reverse] at h3
  unfold trimZeros
  conv_lhs => rw [← h3]
  congr 1
  conv_lhs => rw [h2]
  rw [List.reverse_replicate]

theorem fracText_spec {ns : Nat} (h : ns < 10 ^ 9) :
    ∃ num k, Frac (fracText ns) num k ∧ k ≤ 3 ∧ num * 1000 = (ns / 10 ^ 6) * 10 ^ k ∧ (ns = 0 → k = 0) := by
  unfold fracText
  split_ifs with h0
  · subst h0; exact ⟨0, 0, .none, by omega, by simp⟩
  · simp only
    have hp := pad_digits (w := 9) (by omega) h
    have hlen : ((pad 9 ns).take 3).length = 3 := by simp [hp.1]
    have hval : decVal ((pad 9 ns).take 3) = ns / 10 ^ 6 := by
      rw [decVal_take hp.2.1 (by rw [hp.1]; omega), hp.2.2, hp.1]
    have hdig : ∀ b ∈ (pad 9 ns).take 3, isDigit b = true := fun b hb => hp.2.1 b (List.mem_of_mem_take hb)
    generalize hS : (pad 9 ns).take 3 = S at *
    obtain ⟨k, hk⟩ := trimZeros_spec S
    have hv : decVal S = decVal (trimZeros S) * 10 ^ k := by
      conv_lhs => rw [hk, decVal_app]
      have := decVal_zeros k []
      simp only [List.append_nil] at this
      rw [this]; simp [decVal]
    have hl : (trimZeros S).length + k = 3 := by
      have := congrArg List.length hk
      simp at this; omega
    split_ifs with he
    · refine ⟨0, 0, .none, by omega, ?_, fun _ => rfl⟩
      rw [he] at hv
      rw [← hval, hv]; simp [decVal]
    · refine ⟨_, _, .some he (fun b hb => hdig b (by rw [hk]; simp [hb])), by omega, ?_,
        fun e => absurd e h0⟩
      rw [← hval, hv]
      have : 1000 = 10 ^ k * 10 ^ (trimZeros S).length := by
        rw [← pow_add, Nat.add_comm, hl]; rfl
      rw [this]; ring

/-- Every time of the years 0 to 9999 is written as a date-time text denoting it, cropped to ms. -/
theorem format_denotes (t : Time) (hn : t.nsec < 10 ^ 9) (h1 : -62167219200 ≤ t.sec)
    (h2 : t.sec ≤ 253402300799) :
    ∃ num k, Denotes (format t) t.sec num k ∧ k ≤ 3 ∧ num * 1000 = (t.nsec / 10 ^ 6) * 10 ^ k ∧
      (t.nsec = 0 → k = 0) := by
  obtain ⟨num, k, hf, hk, hnum, hk0⟩ := fracText_spec hn
  refine ⟨num, k, ?_, hk, hnum, hk0⟩
  have hc := civil_spec (t.sec / 86400)
  obtain ⟨y0, y1⟩ := civil_year (z := t.sec / 86400) (by omega) (by omega)
  have hv := hc.1
  obtain ⟨v1, v2, v3, v4⟩ := hc.1
  simp only at v1 v2 v3 v4
  have hd31 : (civilOfDays (t.sec / 86400)).day < 100 := by
    have hl := lastDay_vals (civilOfDays (t.sec / 86400)).year
    generalize (civilOfDays (t.sec / 86400)).month = m at *
    split_ifs at hl <;> interval_cases m <;> omega
  have hday := (dayNo_iff _ _).2 hc
  unfold format
  simp only
  generalize civilOfDays (t.sec / 86400) = c at *
  obtain ⟨y, m, d⟩ := c
  simp only at *
  obtain ⟨yn, rfl⟩ := Int.eq_ofNat_of_zero_le y0
  have hpy : padYear (yn : Int) = pad 4 yn := by
    unfold padYear; rw [if_neg (by omega)]; simp
  rw [hpy]
  refine ⟨_, _, _, _, _, _, _, _, yn, m, d, _, _, _, 0, t.sec / 86400, rfl,
    pad_digits (by omega) (by omega), pad_digits (by omega) (by omega), pad_digits (by omega) (by omega),
    pad_digits (by omega) ?_, pad_digits (by omega) ?_, pad_digits (by omega) ?_, hf, .utc, ?_, ?_, ?_, hv,
    hday, ?_⟩ <;> omega

theorem unix_zero (s : Int) : unix s 0 = ⟨s, 0⟩ := by
  unfold unix; rw [if_neg (by omega)]; rfl

theorem tdiv_cases (a : Int) (b : Int) (hb : 0 < b) :
    (0 ≤ a ∧ Int.tdiv a b = a / b) ∨ (a < 0 ∧ Int.tdiv a b = -((-a) / b)) := by
  rcases le_or_gt 0 a with h | h
  · left; exact ⟨h, Int.tdiv_eq_ediv_of_nonneg h⟩
  · right
    refine ⟨h, ?_⟩
    have := Int.neg_tdiv (-a) b
    rw [neg_neg] at this
    rw [this, Int.tdiv_eq_ediv_of_nonneg (by omega)]

/-- `time.Unix` yields the same instant with the nanoseconds in range. -/
theorem unix_spec (s n : Int) :
    (unix s n).nsec < 10 ^ 9 ∧ (unix s n).sec * 10 ^ 9 + (unix s n).nsec = s * 10 ^ 9 + n := by
  unfold unix
  split_ifs with h
  · simp only
    rcases tdiv_cases n 1000000000 (by omega) with ⟨h0, e⟩ | ⟨h0, e⟩ <;> rw [e] <;> split_ifs <;>
      simp only <;> omega
  · simp only; omega

/-- **C21** (writing). The text for a number of seconds denotes exactly that instant, in UTC. -/
theorem C21_text_S (s : Int) (h1 : -62167219200 ≤ s) (h2 : s ≤ 253402300799) :
    Denotes (dateTimeS s) s 0 0 := by
  unfold dateTimeS
  rw [unix_zero]
  have h3 := format_denotes ⟨s, 0⟩ (by simp) h1 h2
  obtain ⟨num, k, hd, hk, hn, hk0⟩ := h3
  have := hk0 rfl
  subst this
  simp at hn
  subst hn
  exact hd

/-- **C21** (writing). The text for a number of milliseconds denotes exactly that instant, also before 1970. -/
theorem C21_text_MS (ms : Int) (h1 : -62167219200000 ≤ ms) (h2 : ms ≤ 253402300799999) :
    ∃ sec num k, Denotes (dateTimeMS ms) sec num k ∧ k ≤ 3 ∧ (ms : ℚ) / 1000 = sec + num / 10 ^ k := by
  unfold dateTimeMS
  simp only
  have hu := unix_spec (Int.tdiv ms 1000) ((ms - 1000 * Int.tdiv ms 1000) * 1000000)
  have hq : (unix (Int.tdiv ms 1000) ((ms - 1000 * Int.tdiv ms 1000) * 1000000)).sec * 10 ^ 9 +
      (unix (Int.tdiv ms 1000) ((ms - 1000 * Int.tdiv ms 1000) * 1000000)).nsec = ms * 10 ^ 6 := by
    rw [hu.2]; ring
  generalize unix (Int.tdiv ms 1000) ((ms - 1000 * Int.tdiv ms 1000) * 1000000) = t at *
  obtain ⟨num, k, hd, hk, hn, _⟩ := format_denotes t hu.1 (by omega) (by omega)
  refine ⟨_, _, _, hd, hk, ?_⟩
  have e1 : ms = 1000 * t.sec + (t.nsec / 10 ^ 6 : ℕ) := by omega
  generalize t.nsec / 10 ^ 6 = q at *
  have e2 : (num : ℚ) * 1000 = (q : ℚ) * 10 ^ k := by exact_mod_cast hn
  have hp : (10:ℚ) ^ k ≠ 0 := by positivity
  have e3 : (ms : ℚ) = 1000 * t.sec + (q : ℚ) := by rw [e1]; push_cast; ring
  rw [e3]
  field_simp
  linarith

/-! ### Seconds as floats -/

/-- Whole seconds that survive the way through nanoseconds in floating point. -/
def Bad (n : Int) : Prop := n % 2 = 1 ∧ 4611686019 ≤ n ∧ n < 8589934592

theorem fl_mul_pow {m : ℕ} {k : ℤ} (h : m < 2 ^ 53) (hk : -1074 ≤ k) : fl (m * pow2 k) = m * pow2 k :=
  fl_exact ⟨m, k, h, hk, rfl⟩

theorem nanos_exact {n : ℕ} (h : n ≤ 4611686018) : fl (n * 1000000000) = n * 1000000000 := by
  have := fl_mul_pow (m := n * 1953125) (k := 9) (by omega) (by omega)
  have e : ((n * 1953125 : ℕ) : ℚ) * pow2 9 = n * 1000000000 := by
    rw [pow2_eq]; push_cast; norm_num; ring
  rwa [e] at this

theorem nanos_exact_even {n : ℕ} (h : n ≤ 9223372036) (he : n % 2 = 0) : fl (n * 1000000000) = n * 1000000000 := by
  have := fl_mul_pow (m := n / 2 * 1953125) (k := 10) (by omega) (by omega)
  have e : ((n / 2 * 1953125 : ℕ) : ℚ) * pow2 10 = n * 1000000000 := by
    obtain ⟨k, rfl⟩ : ∃ k, n = 2 * k := ⟨n / 2, by omega⟩
    have : 2 * k / 2 = k := by omega
    rw [this, pow2_eq]; push_cast; norm_num; ring
  rwa [e] at this

theorem back_exact {n : ℕ} (h : n ≤ 9223372036) (e : fl (n * 1000000000) = n * 1000000000) :
    fl (fl (n * 1000000000) / 1000000000) = n := by
  rw [e]
  have : (n : ℚ) * 1000000000 / 1000000000 = n := by field_simp
  rw [this]; exact fl_nat (by omega)

theorem pow2_vals : pow2 10 = 1024 ∧ pow2 62 = 2 ^ 62 ∧ pow2 63 = 2 ^ 63 ∧ pow2 33 = 2 ^ 33 ∧ pow2 34 = 2 ^ 34 ∧
    pow2 32 = 2 ^ 32 ∧ pow2 (-19) = 1 / 524288 ∧ pow2 (-20) = 1 / 1048576 ∧ pow2 61 = 2 ^ 61 ∧ pow2 9 = 512 := by
  simp only [pow2_eq]; norm_num

/-- A value with known binary exponent is rounded to a multiple of its unit in the last place. -/
theorem fl_form {q : ℚ} {e : ℤ} (h0 : 0 < q) (h1 : pow2 e ≤ q) (h2 : q < pow2 (e + 1)) (he : -1022 ≤ e) :
    ∃ m : ℤ, fl q = m * pow2 (e - 52) ∧ |fl q - q| ≤ pow2 (e - 52) / 2 ∧ m = rne (q / pow2 (e - 52)) := by
  have hb := binExp_unique h1 h2
  have hu : ulpExp q = e - 52 := by unfold ulpExp; rw [hb]; omega
  have herr := fl_err h0
  rw [hu] at herr
  refine ⟨_, ?_, herr, rfl⟩
  unfold fl
  rw [if_neg (by linarith), hu]

theorem nanos_large {n : ℕ} (h : n ≤ 9223372036) (hn : 8589934592 ≤ n) (ho : n % 2 = 1) :
    fl (fl (n * 1000000000) / 1000000000) = n := by
  obtain ⟨p10, p62, p63, p33, p34, p32, p19, p20, p61, p9⟩ := pow2_vals
  have hnq : (8589934593 : ℚ) ≤ n := by exact_mod_cast (by omega : 8589934593 ≤ n)
  have hnq2 : (n : ℚ) ≤ 9223372036 := by exact_mod_cast h
  obtain ⟨m, _, e1, _⟩ := fl_form (q := (n : ℚ) * 1000000000) (e := 62) (by linarith)
    (by rw [p62]; norm_num; linarith) (by norm_num; rw [p63]; norm_num; linarith) (by omega)
  norm_num at e1
  rw [p10] at e1
  generalize fl ((n : ℚ) * 1000000000) = x at e1
  rw [abs_le] at e1
  obtain ⟨m2, f1, f2, _⟩ := fl_form (q := x / 1000000000) (e := 33) (by linarith)
    (by rw [p33]; norm_num; linarith) (by norm_num; rw [p34]; norm_num; linarith) (by omega)
  norm_num at f1 f2
  rw [p19] at f1 f2
  rw [f1] at f2 ⊢
  rw [abs_le] at f2
  have hh : m2 = (n : ℤ) * 524288 := by
    have a1 : (m2 : ℚ) < n * 524288 + 1 := by linarith
    have a2 : (n : ℚ) * 524288 - 1 < m2 := by linarith
    have a1' : m2 < (n : ℤ) * 524288 + 1 := by exact_mod_cast a1
    have a2' : (n : ℤ) * 524288 - 1 < m2 := by exact_mod_cast a2
    omega
  rw [hh]; push_cast; ring

theorem nanos_bad {n : ℕ} (h : n < 8589934592) (hn : 4611686019 ≤ n) (ho : n % 2 = 1) :
    fl (fl (n * 1000000000) / 1000000000) ≠ n := by
  obtain ⟨p10, p62, p63, p33, p34, p32, p19, p20, p61, p9⟩ := pow2_vals
  have hnq : (4611686019 : ℚ) ≤ n := by exact_mod_cast (by omega : 4611686019 ≤ n)
  have hnq2 : (n : ℚ) ≤ 8589934591 := by exact_mod_cast (by omega : n ≤ 8589934591)
  obtain ⟨m, e0, e1, _⟩ := fl_form (q := (n : ℚ) * 1000000000) (e := 62) (by linarith)
    (by rw [p62]; norm_num; linarith) (by norm_num; rw [p63]; norm_num; linarith) (by omega)
  norm_num at e0 e1
  rw [p10] at e0 e1
  rw [e0] at e1 ⊢
  have hne : 2 * m ≠ (n : ℤ) * 1953125 := by omega
  have hsep : |(m : ℚ) * 1024 - n * 1000000000| ≥ 512 := by
    have : (m : ℚ) * 1024 - n * 1000000000 = ((2 * m - n * 1953125 : ℤ) : ℚ) * 512 := by push_cast; ring
    rw [this, abs_mul, ← Int.cast_abs]
    have h1 : 1 ≤ |2 * m - (n : ℤ) * 1953125| := Int.one_le_abs (by omega)
    have h1' : (1 : ℚ) ≤ ((|2 * m - (n : ℤ) * 1953125| : ℤ) : ℚ) := by exact_mod_cast h1
    rw [abs_of_pos (by norm_num : (0:ℚ) < 512)]
    linarith
  intro hfin
  have e1' := abs_le.1 e1
  obtain ⟨m2, _, f2, _⟩ := fl_form (q := (m : ℚ) * 1024 / 1000000000) (e := 32) (by linarith)
    (by rw [p32]; norm_num; linarith) (by norm_num; rw [p33]; norm_num; linarith) (by omega)
  rw [hfin] at f2
  norm_num at f2
  rw [p20] at f2
  have : |(n : ℚ) - m * 1024 / 1000000000| = |(m : ℚ) * 1024 - n * 1000000000| / 1000000000 := by
    rw [abs_sub_comm, ← abs_of_pos (by norm_num : (0:ℚ) < 1000000000), ← abs_div]
    congr 1
    rw [abs_of_pos (by norm_num : (0:ℚ) < 1000000000)]
    ring
  rw [this] at f2
  linarith

theorem nat_roundtrip {n : ℕ} (h : n ≤ 9223372036) :
    fl (fl (n * 1000000000) / 1000000000) = n ↔ ¬ Bad n := by
  unfold Bad
  by_cases h1 : n ≤ 4611686018
  · exact iff_of_true (back_exact h (nanos_exact h1)) (by omega)
  · by_cases h2 : n % 2 = 0
    · exact iff_of_true (back_exact h (nanos_exact_even h h2)) (by omega)
    · by_cases h3 : 8589934592 ≤ n
      · exact iff_of_true (nanos_large h h3 (by omega)) (by omega)
      · exact iff_of_false (nanos_bad (by omega) (by omega) (by omega)) (by omega)

theorem flS_roundtrip_neg (q : ℚ) : flS (flS (-q) / 1000000000) = - flS (flS q / 1000000000) := by
  rw [flS_neg, neg_div, flS_neg]

theorem flS_roundtrip_nat (n : ℕ) :
    flS (flS ((n : ℚ) * 1000000000) / 1000000000) = fl (fl (n * 1000000000) / 1000000000) := by
  have h1 : (0 : ℚ) ≤ (n : ℚ) * 1000000000 := by positivity
  rw [flS_of_nonneg h1, flS_of_nonneg (div_nonneg (fl_nonneg _) (by norm_num))]

theorem int_roundtrip {s : ℤ} (h1 : -9223372036 ≤ s) (h2 : s ≤ 9223372036) :
    flS (flS (s * 1000000000) / 1000000000) = s ↔ ¬ Bad |s| := by
  rcases le_or_gt 0 s with h | h
  · obtain ⟨n, rfl⟩ := Int.eq_ofNat_of_zero_le h
    rw [abs_of_nonneg h]
    have := nat_roundtrip (n := n) (by omega)
    rw [← flS_roundtrip_nat] at this
    simpa using this
  · obtain ⟨n, hn⟩ := Int.eq_ofNat_of_zero_le (by omega : 0 ≤ -s)
    have hs : s = -(n : ℤ) := by omega
    subst hs
    rw [abs_neg, abs_of_nonneg (by omega)]
    have := nat_roundtrip (n := n) (by omega)
    have e : ((-(n:ℤ) : ℤ) : ℚ) * 1000000000 = -((n : ℚ) * 1000000000) := by push_cast; ring
    rw [e, flS_roundtrip_neg, flS_roundtrip_nat]
    rw [← this]
    push_cast
    constructor
    · intro h; linarith
    · intro h; rw [h]

/-- **C21** as stated: reading back the text written for a number of seconds gives the same number. -/
def C21_statement : Prop :=
  ∀ s : Int, IsI64 (s * 1000000000) → convertToSeconds (dateTimeS s) = some (s : ℚ)

theorem convert_S {s : Int} (h : IsI64 (s * 1000000000)) :
    convertToSeconds (dateTimeS s) = some (flS (flS (s * 1000000000) / 1000000000)) := by
  have h' := h
  unfold IsI64 at h'
  have := C21_read _ _ _ _ (C21_text_S s (by omega) (by omega))
  unfold convertToSeconds
  rw [this]
  have hu : unixNano ⟨s, 0 * 10 ^ 9 / 10 ^ 0⟩ = s * 1000000000 := by
    unfold unixNano; simp; unfold i64; omega
  simp only [Option.map_some, hu]
  push_cast
  rfl

/-- **C21**. The round trip is exact precisely outside the odd seconds between 4611686019 and 2^33 (from
the year 2116 on), where nanoseconds no longer fit the float and the error shows. -/
theorem C21_seconds_iff (s : Int) (h : IsI64 (s * 1000000000)) :
    convertToSeconds (dateTimeS s) = some (s : ℚ) ↔ ¬ (|s| % 2 = 1 ∧ 4611686019 ≤ |s| ∧ |s| < 2 ^ 33) := by
  rw [convert_S h, Option.some_inj]
  unfold IsI64 at h
  exact int_roundtrip (by omega) (by omega)

theorem C21_refuted : ¬ C21_statement := by
  intro h
  have := (C21_seconds_iff 4611686019 (by unfold IsI64; norm_num)).1 (h _ (by unfold IsI64; norm_num))
  exact this (by norm_num)

/-- **C21** for all instants up to the year 2116. -/
theorem C21_seconds_partial (s : Int) (h1 : -4611686018 ≤ s) (h2 : s ≤ 4611686018) :
    convertToSeconds (dateTimeS s) = some (s : ℚ) := by
  rw [C21_seconds_iff s (by unfold IsI64; omega)]
  have : |s| ≤ 4611686018 := abs_le.2 ⟨by omega, h2⟩
  omega

example : dateTimeS 1577836800 = (b!"2020-01-01T00:00:00Z") := by decide +kernel
example : dateTimeS (-1) = (b!"1969-12-31T23:59:59Z") := by decide +kernel
example : dateTimeMS (-1) = (b!"1969-12-31T23:59:59.999Z") := by decide +kernel
example : dateTimeMS 1582934400120 = (b!"2020-02-29T00:00:00.12Z") := by decide +kernel
example : parse (b!"2020-02-29T01:30:00.5+01:30") = some ⟨1582934400, 500000000⟩ := by decide +kernel
example : parse (b!"2019-02-29T01:30:00Z") = none := by decide +kernel

end Verif.DateTime
