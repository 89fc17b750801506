import Verif.Basic
import Mathlib.Tactic.Ring

/-
Model of the strconv functions (Go standard library, outside the repository) used by the code: decimal
formatting and parsing of integers and booleans.  These are models of documented library behaviour.
-/
namespace Verif.Strconv

open Verif

/-- Byte of a decimal digit. -/
def digitByte (d : Nat) : UInt8 := UInt8.ofNat (48 + d)

/-- `strconv.FormatUint(n, 10)`; also `%d` of a non-negative number. -/
def formatUint (n : Nat) : Bytes :=
  if n < 10 then [digitByte n] else formatUint (n / 10) ++ [digitByte (n % 10)]
termination_by n

/-- `strconv.FormatInt(i, 10)`. -/
def formatInt (i : Int) : Bytes := if i < 0 then ch%'-' :: formatUint i.natAbs else formatUint i.natAbs

/-- `strconv.ParseUint(s, 10, bits)`: `none` for a syntax or range error. -/
def parseUint (s : Bytes) (bits : Nat) : Option Nat :=
  if s = [] then none
  else if s.all isDigit then (if decVal s < 2^bits then some (decVal s) else none)
  else none

/-- `strconv.ParseInt(s, 10, bits)`: optional sign, then as `ParseUint`, range of a signed integer. -/
def parseInt (s : Bytes) (bits : Nat) : Option Int :=
  match s with
  | [] => none
  | c :: cs =>
    let neg := decide (c = ch%'-')
    let body := if c = ch%'+' ∨ c = ch%'-' then cs else s
    match parseUint body bits with
    | none => none
    | some un =>
      if !neg && decide (2^(bits-1) ≤ un) then none
      else if neg && decide (2^(bits-1) < un) then none
      else some (if neg then -(un : Int) else un)

/-- `strconv.FormatBool`. -/
def formatBool (b : Bool) : Bytes := if b then (b!"true") else (b!"false")

/-- `strconv.ParseBool`. -/
def parseBool (s : Bytes) : Option Bool :=
  if s = (b!"1") ∨ s = (b!"t") ∨ s = (b!"T") ∨ s = (b!"TRUE") ∨ s = (b!"true") ∨ s = (b!"True") then some true
  else if s = (b!"0") ∨ s = (b!"f") ∨ s = (b!"F") ∨ s = (b!"FALSE") ∨ s = (b!"false") ∨ s = (b!"False") then some false
  else none

/-! ### Lemmas -/

theorem digitByte_toNat {d : Nat} (h : d < 10) : (digitByte d).toNat = 48 + d := by
  unfold digitByte; rw [UInt8.toNat_ofNat']; omega

theorem digitByte_isDigit {d : Nat} (h : d < 10) : isDigit (digitByte d) = true := by
  unfold isDigit; rw [digitByte_toNat h]; simp; omega

theorem decVal_snoc (a : Bytes) (d : UInt8) : decVal (a ++ [d]) = 10 * decVal a + (d.toNat - 48) := by
  simp [decVal]

theorem formatUint_spec (n : Nat) :
    decVal (formatUint n) = n ∧ (∀ b ∈ formatUint n, isDigit b = true) ∧ formatUint n ≠ [] := by
  induction n using Nat.strongRecOn with
  | ind n ih =>
    unfold formatUint
    split
    · rename_i h
      refine ⟨?_, ?_, by simp⟩
      · simp [decVal, digitByte_toNat h]
      · intro b hb; simp at hb; subst hb; exact digitByte_isDigit h
    · rename_i h
      obtain ⟨h1, h2, h3⟩ := ih (n / 10) (by omega)
      refine ⟨?_, ?_, by simp⟩
      · rw [decVal_snoc, h1, digitByte_toNat (by omega)]; omega
      · intro b hb
        rcases List.mem_append.1 hb with h4 | h4
        · exact h2 b h4
        · simp at h4; subst h4; exact digitByte_isDigit (by omega)

theorem formatUint_val (n : Nat) : decVal (formatUint n) = n := (formatUint_spec n).1
theorem formatUint_digits (n : Nat) : ∀ b ∈ formatUint n, isDigit b = true := (formatUint_spec n).2.1
theorem formatUint_ne (n : Nat) : formatUint n ≠ [] := (formatUint_spec n).2.2

theorem formatUint_inj {m n : Nat} (h : formatUint m = formatUint n) : m = n := by
  rw [← formatUint_val m, h, formatUint_val]

/-- Canonical: no leading zero except for zero itself. -/
theorem formatUint_head (n : Nat) : ∃ d ds, formatUint n = d :: ds ∧ (d = ch%'0' → n = 0 ∧ ds = []) := by
  induction n using Nat.strongRecOn with
  | ind n ih =>
    unfold formatUint
    split
    · rename_i h
      refine ⟨_, _, rfl, ?_⟩
      intro hd
      have := congrArg UInt8.toNat hd
      rw [digitByte_toNat h] at this
      simp at this; exact ⟨this, rfl⟩
    · rename_i h
      obtain ⟨d, ds, h1, h2⟩ := ih (n/10) (by omega)
      refine ⟨d, ds ++ [digitByte (n % 10)], by rw [h1]; simp, ?_⟩
      intro hd
      have := (h2 hd).1
      omega

theorem parseUint_iff (s : Bytes) (bits n : Nat) :
    parseUint s bits = some n ↔ s ≠ [] ∧ (∀ b ∈ s, isDigit b = true) ∧ decVal s = n ∧ n < 2^bits := by
  unfold parseUint
  by_cases h0 : s = []
  · simp [h0]
  · rw [if_neg h0]
    by_cases h1 : s.all isDigit = true
    · rw [if_pos h1]
      have h1' := List.all_eq_true.1 h1
      by_cases h2 : decVal s < 2^bits
      · rw [if_pos h2]
        simp only [Option.some.injEq]
        constructor
        · rintro rfl; exact ⟨h0, h1', rfl, h2⟩
        · rintro ⟨_, _, h, _⟩; exact h
      · rw [if_neg h2]
        simp
        intro _ _ h3; omega
    · rw [if_neg h1]
      simp only [reduceCtorEq, false_iff]
      rintro ⟨_, h2, _⟩
      exact h1 (List.all_eq_true.2 h2)

/-- Formatting then parsing an unsigned integer in range is the identity. -/
theorem parseUint_formatUint (n bits : Nat) (h : n < 2^bits) : parseUint (formatUint n) bits = some n :=
  (parseUint_iff _ _ _).2 ⟨formatUint_ne n, formatUint_digits n, formatUint_val n, h⟩

theorem sign_not_digit : isDigit ch%'-' = false ∧ isDigit ch%'+' = false := by decide

/-- Formatting then parsing a signed integer in range is the identity. -/
theorem parseInt_formatInt (i : Int) (bits : Nat) (hb : 1 ≤ bits) (h1 : -(2^(bits-1) : Int) ≤ i)
    (h2 : i < (2^(bits-1) : Int)) : parseInt (formatInt i) bits = some i := by
  have hpow : (2:Nat)^bits = 2 * 2^(bits-1) := by
    conv_lhs => rw [show bits = (bits - 1) + 1 by omega]
    rw [pow_succ]; ring
  have hcast : ((2^(bits-1) : Nat) : Int) = (2^(bits-1) : Int) := by simp
  have hpos : 0 < (2:Nat)^(bits-1) := Nat.pow_pos (by omega)
  by_cases hi : i < 0
  · have hlt : i.natAbs < 2^bits := by omega
    unfold formatInt
    rw [if_pos hi]
    unfold parseInt
    simp only [decide_true, or_true, if_true, parseUint_formatUint _ _ hlt]
    rw [if_neg (by simp), if_neg (by simp; omega)]
    congr 1; omega
  · have hlt : i.natAbs < 2^bits := by omega
    unfold formatInt
    rw [if_neg hi]
    obtain ⟨d, ds, hd, -⟩ := formatUint_head i.natAbs
    have hdig := formatUint_digits i.natAbs d (by rw [hd]; simp)
    have hm : d ≠ ch%'-' := by rintro rfl; rw [sign_not_digit.1] at hdig; cases hdig
    have hp : d ≠ ch%'+' := by rintro rfl; rw [sign_not_digit.2] at hdig; cases hdig
    have h3 := parseUint_formatUint i.natAbs bits hlt
    rw [hd] at h3 ⊢
    unfold parseInt
    simp only [hm, hp, or_self, decide_false, if_false, h3]
    rw [if_neg (by simp; omega), if_neg (by simp)]
    congr 1; simp; omega

/-- Independent reading of a decimal integer with optional sign. -/
inductive DecInt : Bytes → Int → Prop
  | plain (s) : s ≠ [] → (∀ b ∈ s, isDigit b = true) → DecInt s (decVal s)
  | plus (s) : s ≠ [] → (∀ b ∈ s, isDigit b = true) → DecInt (ch%'+' :: s) (decVal s)
  | minus (s) : s ≠ [] → (∀ b ∈ s, isDigit b = true) → DecInt (ch%'-' :: s) (-(decVal s : Int))

theorem parseInt_iff (s : Bytes) (bits : Nat) (hb : 1 ≤ bits) (v : Int) :
    parseInt s bits = some v ↔ DecInt s v ∧ -(2^(bits-1) : Int) ≤ v ∧ v < (2^(bits-1) : Int) := by
  have hpow : (2:Nat)^bits = 2 * 2^(bits-1) := by
    conv_lhs => rw [show bits = (bits - 1) + 1 by omega]
    rw [pow_succ]; ring
  have hcast : ((2^(bits-1) : Nat) : Int) = (2^(bits-1) : Int) := by simp
  have hpos : 0 < (2:Nat)^(bits-1) := Nat.pow_pos (by omega)
  cases s with
  | nil =>
    simp only [parseInt, reduceCtorEq, false_iff]
    rintro ⟨hd, -⟩
    cases hd with
    | plain _ h => exact h rfl
  | cons c cs =>
    unfold parseInt
    by_cases hm : c = ch%'-'
    · subst hm
      simp only [decide_true, or_true, if_true]
      cases hp : parseUint cs bits with
      | none =>
        simp only [reduceCtorEq, false_iff]
        rintro ⟨hd, h1, h2⟩
        cases hd with
        | plain _ _ h => exact absurd (h ch%'-' (by simp)) (by decide)
        | minus _ h h' =>
          have : parseUint cs bits = some (decVal cs) :=
            (parseUint_iff _ _ _).2 ⟨h, h', rfl, by omega⟩
          rw [hp] at this; cases this
      | some un =>
        obtain ⟨h3, h4, h5, h6⟩ := (parseUint_iff _ _ _).1 hp
        simp only [Bool.not_true, Bool.false_and, Bool.true_and, decide_eq_true_eq,
          Bool.false_eq_true, if_false]
        split
        · simp only [reduceCtorEq, false_iff]
          rintro ⟨hd, h1, h2⟩
          cases hd with
          | plain _ _ h => exact absurd (h ch%'-' (by simp)) (by decide)
          | minus _ h h' => omega
        · simp only [Option.some.injEq, if_true]
          constructor
          · rintro rfl; subst h5; exact ⟨.minus _ h3 h4, by omega, by omega⟩
          · rintro ⟨hd, h1, h2⟩
            cases hd with
            | plain _ _ h => exact absurd (h ch%'-' (by simp)) (by decide)
            | minus _ h h' => rw [h5]
    · by_cases hpl : c = ch%'+'
      · subst hpl
        simp only [true_or, if_true, show ¬ ((43 : UInt8) = 45) by decide, decide_false]
        cases hp : parseUint cs bits with
        | none =>
          simp only [reduceCtorEq, false_iff]
          rintro ⟨hd, h1, h2⟩
          cases hd with
          | plain _ _ h => exact absurd (h ch%'+' (by simp)) (by decide)
          | plus _ h h' =>
            have : parseUint cs bits = some (decVal cs) :=
              (parseUint_iff _ _ _).2 ⟨h, h', rfl, by omega⟩
            rw [hp] at this; cases this
        | some un =>
          obtain ⟨h3, h4, h5, h6⟩ := (parseUint_iff _ _ _).1 hp
          simp only [Bool.not_false, Bool.false_and, Bool.true_and, decide_eq_true_eq,
            Bool.false_eq_true, if_false]
          split
          · simp only [reduceCtorEq, false_iff]
            rintro ⟨hd, h1, h2⟩
            cases hd with
            | plain _ _ h => exact absurd (h ch%'+' (by simp)) (by decide)
            | plus _ h h' => omega
          · simp only [Option.some.injEq]
            constructor
            · rintro rfl; subst h5; exact ⟨.plus _ h3 h4, by omega, by omega⟩
            · rintro ⟨hd, h1, h2⟩
              cases hd with
              | plain _ _ h => exact absurd (h ch%'+' (by simp)) (by decide)
              | plus _ h h' => rw [h5]
      · simp only [hm, hpl, or_self, decide_false, if_false]
        cases hp : parseUint (c :: cs) bits with
        | none =>
          simp only [reduceCtorEq, false_iff]
          rintro ⟨hd, h1, h2⟩
          cases hd with
          | plain _ h h' =>
            have : parseUint (c :: cs) bits = some (decVal (c :: cs)) :=
              (parseUint_iff _ _ _).2 ⟨h, h', rfl, by omega⟩
            rw [hp] at this; cases this
          | plus => exact hpl rfl
          | minus => exact hm rfl
        | some un =>
          obtain ⟨h3, h4, h5, h6⟩ := (parseUint_iff _ _ _).1 hp
          simp only [Bool.not_false, Bool.false_and, Bool.true_and, decide_eq_true_eq,
            Bool.false_eq_true, if_false]
          split
          · simp only [reduceCtorEq, false_iff]
            rintro ⟨hd, h1, h2⟩
            cases hd with
            | plain _ h h' => omega
            | plus => exact hpl rfl
            | minus => exact hm rfl
          · simp only [Option.some.injEq]
            constructor
            · rintro rfl; subst h5; exact ⟨.plain _ h3 h4, by omega, by omega⟩
            · rintro ⟨hd, h1, h2⟩
              cases hd with
              | plain _ h h' => rw [h5]
              | plus => exact absurd rfl hpl
              | minus => exact absurd rfl hm

theorem parseBool_formatBool (b : Bool) : parseBool (formatBool b) = some b := by
  cases b <;> decide

end Verif.Strconv
