import Verif.DurationLemmas
import Verif.DurationSpec

/-
Closed form of the rendered string.
-/
namespace Verif.Duration

open Verif Verif.DurationSpec

/-- What `String` produces for a non-zero duration of magnitude `u`: optional hour, minute and second fields. -/
structure Form (u : Nat) (H M S : Option Bytes) (sv : ℚ) : Prop where
  hH : ∀ n ∈ H, Digits n ∧ n.length ≤ 7
  hM : ∀ n ∈ M, Digits n ∧ n.length ≤ 2
  hS : match S with
    | none => sv = 0
    | some n => ∃ ip fs, n = digits ip ++ dotFrac fs ∧ ip < 60 ∧ (∀ b ∈ fs, isDigit b = true) ∧
        fs.length ≤ 9 ∧ (500000 ≤ u → fs.length ≤ 3) ∧ sv = ip + (decVal fs : ℚ) / 10 ^ fs.length
  short : u < 500000 → H = none ∧ M = none
  any : H ≠ none ∨ M ≠ none ∨ S ≠ none
  hM60 : fldVal M < 60
  val : (fldVal H * 3600 + fldVal M * 60 + sv : ℚ) =
    if u < 500000 then (u : ℚ) / 1000000000
    else if u < 1000000000 then (((u + 500000) / 1000000 % 1000 : ℕ) : ℚ) / 1000
    else (((u + 500000) / 1000000 : ℕ) : ℚ) / 1000

theorem digits_Digits (v : Nat) : Digits (digits v) := ⟨digits_ne_nil v, digits_isDigit v⟩

theorem digits_zero : digits 0 = [48] := rfl

theorem digits_eq_zero {x : Nat} (h : digits x = [48]) : x = 0 := by
  have := digits_decVal x
  rw [h] at this
  simpa [decVal] using this.symm

theorem secTail_iff (x : Nat) (fs : Bytes) :
    digits x ++ (dotFrac fs ++ [ch%'S']) = b!"0S" ↔ x = 0 ∧ fs = [] := by
  constructor
  · intro h
    have h' : (digits x ++ dotFrac fs) ++ [ch%'S'] = [48] ++ [ch%'S'] := by simpa using h
    have h2 := List.append_cancel_right h'
    have hne := digits_ne_nil x
    have hl := congrArg List.length h2
    have : 0 < (digits x).length := List.length_pos_of_ne_nil hne
    simp at hl
    have hd : dotFrac fs = [] := List.eq_nil_of_length_eq_zero (by omega)
    have hfs : fs = [] := by
      unfold dotFrac at hd
      by_contra hc
      rw [if_neg hc] at hd; simp at hd
    rw [hd] at h2
    simp at h2
    exact ⟨digits_eq_zero h2, hfs⟩
  · rintro ⟨rfl, rfl⟩; rfl

theorem minTail_iff (x : Nat) (t : Bytes) : digits x ++ (ch%'M' :: t) = b!"0M" ↔ x = 0 ∧ t = [] := by
  constructor
  · intro h
    have hne := digits_ne_nil x
    have hl := congrArg List.length h
    have : 0 < (digits x).length := List.length_pos_of_ne_nil hne
    simp at hl
    have ht : t = [] := List.eq_nil_of_length_eq_zero (by omega)
    subst ht
    have h' : digits x ++ [ch%'M'] = [48] ++ [ch%'M'] := by simpa using h
    exact ⟨digits_eq_zero (List.append_cancel_right h'), rfl⟩
  · rintro ⟨rfl, rfl⟩; rfl

theorem dotFrac_length (fs : Bytes) : (dotFrac fs).length ≤ fs.length + 1 := by
  unfold dotFrac; split <;> simp

theorem put_ok {acc : Bytes} (b : UInt8) (h : acc.length < 32) : put acc b = some (b :: acc) := if_pos h

theorem finish (acc : Bytes) (d : Int) (h : acc.length < 30) :
    ((put acc ch%'T').bind fun acc => (put acc ch%'P').bind fun acc =>
      if (decide (d < 0) : Bool) then put acc ch%'-' else some acc) =
    some ((if d < 0 then [ch%'-'] else []) ++ ch%'P' :: ch%'T' :: acc) := by
  rw [put_ok _ (by omega)]
  simp only [Option.bind_some]
  rw [put_ok _ (by simp; omega)]
  simp only [Option.bind_some]
  by_cases hn : d < 0
  · rw [if_pos (by simpa using hn), put_ok _ (by simp; omega), if_pos hn]; rfl
  · rw [if_neg (by simpa using hn), if_neg hn]; rfl

theorem decVal_nil : decVal [] = 0 := rfl

/-- Result of the default case. -/
theorem fmtLarge_form (T : Nat) (h1 : 1000 ≤ T) (h2 : T ≤ 9223372036855) :
    ∃ H M S sv, fmtLarge [ch%'S'] T = some (fld ch%'H' H ++ fld ch%'M' M ++ fld ch%'S' S) ∧
      (∀ n ∈ H, Digits n ∧ n.length ≤ 7) ∧ (∀ n ∈ M, Digits n ∧ n.length ≤ 2) ∧
      (match S with
        | none => sv = 0
        | some n => ∃ ip fs, n = digits ip ++ dotFrac fs ∧ ip < 60 ∧ (∀ b ∈ fs, isDigit b = true) ∧
          fs.length ≤ 3 ∧ sv = ip + (decVal fs : ℚ) / 10 ^ fs.length) ∧
      (H ≠ none ∨ M ≠ none ∨ S ≠ none) ∧ fldVal M < 60 ∧
      (fldVal H * 3600 + fldVal M * 60 + sv : ℚ) = T / 1000 := by
  obtain ⟨fs, hfs, he⟩ := fmtFrac_spec 3 [ch%'S'] T (by simp)
  have hl := dotFrac_length fs
  have hfl := hfs.len
  have hfv := fracVal hfs
  have hfe := hfs.empty
  have hfd := hfs.digit
  simp only [show 10^3 = 1000 from rfl] at *
  norm_num only at hfv
  have d1 := digits_length (v := T / 1000 % 60) (n := 2) (by omega) (by omega)
  have d2 := digits_length (v := T / 1000 / 60 % 60) (n := 2) (by omega) (by omega)
  have d3 := digits_length (v := T / 1000 / 60 / 60) (n := 7) (by omega) (by omega)
  unfold fmtLarge
  rw [he]
  simp only [Option.bind_some]
  generalize hsec : T / 1000 % 60 = sec at *
  generalize hmins : T / 1000 / 60 = mins at *
  have hsec60 : sec < 60 := by omega
  have key : (T : ℚ) / 1000 = (mins / 60 : ℕ) * 3600 + (mins % 60 : ℕ) * 60 + (sec + (decVal fs : ℚ) / 10 ^ fs.length) := by
    rw [hfv]
    have : T = 1000 * (3600 * (mins / 60) + 60 * (mins % 60) + sec) + T % 1000 := by omega
    have : (T:ℚ) = 1000 * (3600 * ((mins / 60 : ℕ) : ℚ) + 60 * ((mins % 60 : ℕ) : ℚ) + sec) + ((T % 1000 : ℕ) : ℚ) := by
      exact_mod_cast this
    conv_lhs => rw [this]
    ring
  have hmn : 0 < mins ∨ 0 < sec := by omega
  clear he hfv hfs
  rw [fmtInt_eq _ _ (by simp; omega)]
  simp only [Option.bind_some, secTail_iff]
  have hm60 : fldVal (some (digits (mins % 60))) < 60 := by
    simp only [fldVal, digits_decVal]; omega
  by_cases hs0 : sec = 0 ∧ fs = []
  · rw [if_pos hs0]
    have hm0 : 0 < mins := by omega
    rw [if_pos hm0, put_ok _ (by simp)]
    simp only [Option.bind_some]
    rw [fmtInt_eq _ _ (by simp; omega)]
    simp only [Option.bind_some, minTail_iff]
    rw [hs0.1, hs0.2] at key
    by_cases hmz : mins % 60 = 0
    · simp only [hmz, and_self, if_true]
      rw [if_pos (by omega), put_ok _ (by simp)]
      simp only [Option.bind_some]
      rw [fmtInt_eq _ _ (by simp; omega)]
      refine ⟨some (digits (mins / 60)), none, none, 0, by simp [fld], ?_, by simp, rfl, by simp, by simp [fldVal], ?_⟩
      · simp; exact ⟨digits_Digits _, d3⟩
      · rw [key, hmz]; simp [fldVal, digits_decVal, decVal_nil]
    · simp only [hmz, false_and, if_false]
      by_cases hh : 0 < mins / 60
      · rw [if_pos hh, put_ok _ (by simp; omega)]
        simp only [Option.bind_some]
        rw [fmtInt_eq _ _ (by simp; omega)]
        refine ⟨some (digits (mins / 60)), some (digits (mins % 60)), none, 0, by simp [fld], ?_, ?_, rfl, by simp, hm60, ?_⟩
        · simp; exact ⟨digits_Digits _, d3⟩
        · simp; exact ⟨digits_Digits _, d2⟩
        · rw [key]; simp [fldVal, digits_decVal, decVal_nil]
      · rw [if_neg hh]
        refine ⟨none, some (digits (mins % 60)), none, 0, by simp [fld], by simp, ?_, rfl, by simp, hm60, ?_⟩
        · simp; exact ⟨digits_Digits _, d2⟩
        · have : mins / 60 = 0 := by omega
          rw [key, this]; simp [fldVal, digits_decVal, decVal_nil]
  · rw [if_neg hs0]
    by_cases hm0 : 0 < mins
    · rw [if_pos hm0, put_ok _ (by simp; omega)]
      simp only [Option.bind_some]
      rw [fmtInt_eq _ _ (by simp; omega)]
      simp only [Option.bind_some, minTail_iff]
      simp only [List.append_eq_nil_iff, List.cons_ne_nil, and_false, if_false]
      by_cases hh : 0 < mins / 60
      · rw [if_pos hh, put_ok _ (by simp; omega)]
        simp only [Option.bind_some]
        rw [fmtInt_eq _ _ (by simp; omega)]
        refine ⟨some (digits (mins / 60)), some (digits (mins % 60)), some (digits sec ++ dotFrac fs), _, by simp [fld],
          ?_, ?_, ⟨sec, fs, rfl, hsec60, hfd, hfl, rfl⟩, by simp, hm60, ?_⟩
        · simp; exact ⟨digits_Digits _, d3⟩
        · simp; exact ⟨digits_Digits _, d2⟩
        · rw [key]; simp [fldVal, digits_decVal]
      · rw [if_neg hh]
        refine ⟨none, some (digits (mins % 60)), some (digits sec ++ dotFrac fs), _, by simp [fld],
          by simp, ?_, ⟨sec, fs, rfl, hsec60, hfd, hfl, rfl⟩, by simp, hm60, ?_⟩
        · simp; exact ⟨digits_Digits _, d2⟩
        · have : mins / 60 = 0 := by omega
          rw [key, this]; simp [fldVal, digits_decVal]
    · rw [if_neg hm0]
      refine ⟨none, none, some (digits sec ++ dotFrac fs), _, by simp [fld],
        by simp, by simp, ⟨sec, fs, rfl, hsec60, hfd, hfl, rfl⟩, by simp, by simp [fldVal], ?_⟩
      have : mins = 0 := by omega
      rw [key, this]; simp [fldVal]

theorem fmtBody_form (u : Nat) (hpos : 0 < u) (hb : u ≤ 9223372036854775808) :
    ∃ H M S sv, Form u H M S sv ∧
      fmtBody [ch%'S'] u (u / 1000000000) (msOf (u - u / 1000000000 * 1000000000)) =
        some (fld ch%'H' H ++ fld ch%'M' M ++ fld ch%'S' S) := by
  have hms : msOf (u - u / 1000000000 * 1000000000) = (u % 1000000000 + 500000) / 1000000 := by
    rw [msOf_eq (by omega)]; omega
  rw [hms]
  unfold fmtBody
  by_cases hs : u / 1000000000 = 0
  · by_cases hm : (u % 1000000000 + 500000) / 1000000 = 0
    · -- below half a millisecond
      have hlt : u < 500000 := by omega
      obtain ⟨fs, hfs, he⟩ := fmtFrac_spec 9 [ch%'S'] u (by simp)
      have hq : u / 10^9 = 0 := by omega
      rw [hq] at he
      have hl := dotFrac_length fs
      have hfl := hfs.len
      refine ⟨none, none, some (digits 0 ++ dotFrac fs), (0:ℕ) + (decVal fs : ℚ) / 10 ^ fs.length, ?_, ?_⟩
      · refine ⟨by simp, by simp, ⟨0, fs, rfl, by omega, hfs.digit, hfl, by omega, rfl⟩, by simp, by simp, by simp [fldVal], ?_⟩
        rw [if_pos hlt, fracVal hfs]
        have : u % 10^9 = u := by omega
        rw [this]; norm_num [fldVal]
      · rw [if_pos ⟨hs, hm⟩, he]
        simp only [Option.bind_some]
        rw [fmtInt_eq 0 _ (by simp [digits]; omega)]
        simp [fld]
    · -- below one second
      have hge : 500000 ≤ u := by omega
      have hlt : u < 1000000000 := by omega
      generalize hmsv : (u % 1000000000 + 500000) / 1000000 = ms at *
      obtain ⟨fs, hfs, he⟩ := fmtFrac_spec 3 [ch%'S'] ms (by simp)
      have hl := dotFrac_length fs
      have hfl := hfs.len
      refine ⟨none, none, some (digits 0 ++ dotFrac fs), (0:ℕ) + (decVal fs : ℚ) / 10 ^ fs.length, ?_, ?_⟩
      · refine ⟨by simp, by simp, ⟨0, fs, rfl, by omega, hfs.digit, by omega, fun _ => hfl, rfl⟩, by simp, by simp, by simp [fldVal], ?_⟩
        rw [if_neg (by omega), if_pos hlt, fracVal hfs]
        have : u % 1000000000 = u := by omega
        rw [this] at hmsv
        rw [hmsv]; norm_num [fldVal]
      · rw [if_neg (by tauto), if_pos hs, he]
        simp only [Option.bind_some]
        rw [put_ok _ (by simp; omega)]
        simp [fld, digits_zero]
  · -- one second or more
    have hT : u64 (1000 * (u / 1000000000) + (u % 1000000000 + 500000) / 1000000) = (u + 500000) / 1000000 := by
      unfold u64; omega
    rw [if_neg (by tauto), if_neg hs, hT]
    obtain ⟨H, M, S, sv, he, hH, hM, hS, hany, h60, hval⟩ :=
      fmtLarge_form ((u + 500000) / 1000000) (by omega) (by omega)
    refine ⟨H, M, S, sv, ⟨hH, hM, ?_, by omega, hany, h60, ?_⟩, he⟩
    · cases S with
      | none => exact hS
      | some n =>
        obtain ⟨ip, fs, a, b, c, e, f⟩ := hS
        exact ⟨ip, fs, a, b, c, by omega, fun _ => e, f⟩
    · rw [if_neg (by omega), if_neg (by omega), hval]

theorem Form.length_le {u H M S sv} (h : Form u H M S sv) :
    (fld ch%'H' H ++ fld ch%'M' M ++ fld ch%'S' S).length ≤ 18 := by
  have h1 : (fld ch%'H' H).length ≤ 8 := by
    cases H with
    | none => simp [fld]
    | some n => have := (h.hH n rfl).2; simp [fld]; omega
  have h2 : (fld ch%'M' M).length ≤ 3 := by
    cases M with
    | none => simp [fld]
    | some n => have := (h.hM n rfl).2; simp [fld]; omega
  have h3 : (fld ch%'S' S).length ≤ (if u < 500000 then 13 else 7) := by
    cases S with
    | none => simp [fld]
    | some n =>
      obtain ⟨ip, fs, a, b, c, e, f, g⟩ := h.hS
      have hd := digits_length (v := ip) (n := 2) (by omega) (by omega)
      have hl := dotFrac_length fs
      subst a
      simp [fld]
      split
      · omega
      · have := f (by omega); omega
  by_cases hu : u < 500000
  · obtain ⟨a, b⟩ := h.short hu
    subst a b
    simp [hu, fld] at h3 ⊢; omega
  · simp [hu] at h3 ⊢; omega

theorem goString_form (d : Int) (hd : IsI64 d) (h0 : d ≠ 0) :
    ∃ H M S sv, Form d.natAbs H M S sv ∧
      goString d = some ((if d < 0 then [ch%'-'] else []) ++ ch%'P' :: ch%'T' ::
        (fld ch%'H' H ++ fld ch%'M' M ++ fld ch%'S' S)) := by
  have hu0 : (d % 2^64).toNat ≠ 0 := by unfold IsI64 at hd; omega
  have hu : (if (decide (d < 0) : Bool) then (2^64 - (d % 2^64).toNat) % 2^64 else (d % 2^64).toNat) = d.natAbs := by
    unfold IsI64 at hd
    by_cases hn : d < 0
    · rw [if_pos (by simpa using hn)]; omega
    · rw [if_neg (by simpa using hn)]; omega
  have hb : d.natAbs ≤ 9223372036854775808 := by unfold IsI64 at hd; omega
  obtain ⟨H, M, S, sv, hf, he⟩ := fmtBody_form d.natAbs (by omega) hb
  refine ⟨H, M, S, sv, hf, ?_⟩
  unfold goString
  simp only [hu]
  rw [if_neg hu0, put_ok _ (by simp)]
  simp only [Option.bind_some]
  rw [he]
  simp only [Option.bind_some]
  have := hf.length_le
  rw [finish _ _ (by omega)]

end Verif.Duration
