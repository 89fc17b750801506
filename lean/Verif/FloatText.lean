import Verif.FloatBits
import Verif.Leaf
import Verif.DurationLemmas
import Mathlib.Tactic.Zify

/-
Floating-point numbers as text: what `strconv.FormatFloat(x, 'f', -1, 64)`, `strconv.FormatFloat(x, 'g', -1, bits)` and
`strconv.ParseFloat` do, which the code calls in `/repo/mpd/mpd.go` 1235, 1244, `/repo/xml/marshal.go` 958 and
`/repo/xml/read.go` 672.

The digits are not computed by a particular algorithm: `GoFloats` says what the documentation of the library says, that the
digits are a shortest sequence that is read back as the same number; the layout of the digits is that of the source.
`goFloat` is one implementation of this contract (so the contract is not empty).
-/
namespace Verif.FloatText

open Verif Verif.Bind Verif.Xml

/-! ### Numerals -/

/-- The number `0.d₁d₂… · 10 ^ dp`, the reading of `decimalSlice` in `strconv`. -/
def decimalVal (ds : Bytes) (dp : ℤ) : ℚ := (decVal ds : ℚ) * 10 ^ (dp - ds.length)

/-- The text of a sign, and whether it is negative. -/
inductive IsSign : Bytes → Bool → Prop
  | none : IsSign [] false
  | plus : IsSign (b!"+") false
  | minus : IsSign (b!"-") true

/-- The text of an exponent and its value. -/
inductive IsExponent : Bytes → ℤ → Prop
  | none : IsExponent [] 0
  | some (c : UInt8) (sg : Bytes) (neg : Bool) (ds : Bytes) (hc : c = ch%'e' ∨ c = ch%'E') (hs : IsSign sg neg)
      (hd : ∀ d ∈ ds, isDigit d = true) (hne : ds ≠ []) :
      IsExponent (c :: (sg ++ ds)) (if neg then -(decVal ds : ℤ) else decVal ds)

/-- The text of a fraction and its digits. -/
inductive IsFraction : Bytes → Bytes → Prop
  | none : IsFraction [] []
  | some (fp : Bytes) (hd : ∀ d ∈ fp, isDigit d = true) : IsFraction (ch%'.' :: fp) fp

/-- Decimal numerals as `ParseFloat` accepts them, without digit separators, with sign and magnitude: `[+-] digits [. digits]
[e [+-] digits]` with at least one digit before the exponent.  Exponents are below 10000, from where on the library stops
counting. -/
inductive Numeral : Bytes → Bool → ℚ → Prop
  | mk (sg ip fr fp ex : Bytes) (neg : Bool) (e : ℤ) (hs : IsSign sg neg) (hi : ∀ d ∈ ip, isDigit d = true)
      (hf : IsFraction fr fp) (hne : ip ++ fp ≠ []) (he : IsExponent ex e) (hb : e.natAbs < 10000) :
      Numeral (sg ++ ip ++ fr ++ ex) neg ((decVal (ip ++ fp) : ℚ) * 10 ^ (e - fp.length))

/-! ### The contract of the library -/

/-- The pattern with a sign. -/
def withSign (b : Nat) (neg : Bool) (y : Nat) : Nat := if neg then 2 ^ (b - 1) + y else y

/-- Digits of the number with the unsigned pattern `y`: they are read back as `y` and no shorter sequence is. -/
structure Shortest (b y : Nat) (ds : Bytes) (dp : ℤ) : Prop where
  digits : ∀ d ∈ ds, isDigit d = true
  reads : nearBits b (decimalVal ds dp) = y
  least : ∀ ds' dp', (∀ d ∈ ds', isDigit d = true) → nearBits b (decimalVal ds' dp') = y → ds.length ≤ ds'.length
  zero : ds = [] → dp = 0

/-- `-` before a negative number. -/
def signText (neg : Bool) : Bytes := if neg then (b!"-") else []

/-- The digit at a place, 0 outside (`fmtF` of `strconv`). -/
def digitAt (ds : Bytes) (i : ℤ) : UInt8 := if 0 ≤ i then ds.getD i.toNat ch%'0' else ch%'0'

/-- `fmtF` of `strconv`: `%f`. -/
def fmtF (neg : Bool) (ds : Bytes) (dp : ℤ) (prec : Nat) : Bytes :=
  signText neg ++ (if 0 < dp then ds.take dp.toNat ++ List.replicate (dp.toNat - ds.length) ch%'0' else (b!"0")) ++
    (if 0 < prec then ch%'.' :: (List.range prec).map (fun i : Nat => digitAt ds (dp + i)) else [])

/-- The exponent part written by `fmtE`: at least two digits. -/
def fmtExp (e : ℤ) : Bytes :=
  ch%'e' :: (if e < 0 then ch%'-' else ch%'+') ::
    (if e.natAbs < 10 then [ch%'0', Strconv.digitByte e.natAbs]
     else if e.natAbs < 100 then [Strconv.digitByte (e.natAbs / 10), Strconv.digitByte (e.natAbs % 10)]
     else [Strconv.digitByte (e.natAbs / 100), Strconv.digitByte (e.natAbs / 10 % 10), Strconv.digitByte (e.natAbs % 10)])

/-- `fmtE` of `strconv`: `%e`, all digits. -/
def fmtE (neg : Bool) (ds : Bytes) (dp : ℤ) : Bytes :=
  signText neg ++ [ds.getD 0 ch%'0'] ++ (if 0 < ds.length - 1 then ch%'.' :: ds.tail else []) ++
    fmtExp (if ds.length = 0 then 0 else dp - 1)

/-- `FormatFloat(x, 'f', -1, _)` from the digits. -/
def layoutF (neg : Bool) (ds : Bytes) (dp : ℤ) : Bytes := fmtF neg ds dp ((ds.length : ℤ) - dp).toNat

/-- `FormatFloat(x, 'g', -1, _)` from the digits: exponents below -4 and from 6 on select `%e`. -/
def layoutG (neg : Bool) (ds : Bytes) (dp : ℤ) : Bytes :=
  if dp - 1 < -4 ∨ 6 ≤ dp - 1 then fmtE neg ds dp else fmtF neg ds dp ((ds.length : ℤ) - dp).toNat

/-- A NaN of 64 bits. -/
def IsNaN64 (x : Nat) : Prop := x < 2 ^ 64 ∧ infBits < absBits 64 x

/-- The documented behaviour of `FormatFloat` with precision -1 and of `ParseFloat`. -/
structure GoFloats (io : FloatIO) : Prop where
  formatF : ∀ x, FiniteBits 64 x →
    ∃ ds dp, Shortest 64 (absBits 64 x) ds dp ∧ io.formatF x = layoutF (signBit 64 x) ds dp
  formatG : ∀ b, b = 32 ∨ b = 64 → ∀ x, FiniteBits b x →
    ∃ ds dp, Shortest b (absBits b x) ds dp ∧ io.formatG b x = layoutG (signBit b x) ds dp
  parse : ∀ b, b = 32 ∨ b = 64 → ∀ s neg q, Numeral s neg q → io.parse b s =
    if nearBits b q < expMax b * 2 ^ mantBits b then some (withSign b neg (nearBits b q)) else none
  formatF_nan : ∀ x, IsNaN64 x → io.formatF x = (b!"NaN")
  formatF_ninf : io.formatF (2 ^ 63 + infBits) = (b!"-Inf")
  parse_nan : ∃ x, io.parse 64 (b!"NaN") = some x ∧ IsNaN64 x
  parse_ninf : io.parse 64 (b!"-Inf") = some (2 ^ 63 + infBits)
  parse_inf : io.parse 64 (b!"+Inf") = some infBits
  formatG_nan : ∀ b, b = 32 ∨ b = 64 → ∀ x, NaNBits b x → io.formatG b x = (b!"NaN")
  formatG_inf : ∀ b, b = 32 ∨ b = 64 → io.formatG b (expMax b * 2 ^ mantBits b) = (b!"+Inf") ∧
    io.formatG b (2 ^ (b - 1) + expMax b * 2 ^ mantBits b) = (b!"-Inf")
  parseG_nan : ∀ b, b = 32 ∨ b = 64 → ∃ x, io.parse b (b!"NaN") = some x ∧ NaNBits b x
  parseG_inf : ∀ b, b = 32 ∨ b = 64 → io.parse b (b!"+Inf") = some (expMax b * 2 ^ mantBits b) ∧
    io.parse b (b!"-Inf") = some (2 ^ (b - 1) + expMax b * 2 ^ mantBits b)

/-! ### Layouts are numerals -/

theorem map_digitAt_neg (ds : Bytes) (k : Nat) :
    (List.range (ds.length + k)).map (fun i : Nat => digitAt ds (-(k : ℤ) + i)) = List.replicate k ch%'0' ++ ds := by
  refine List.ext_getElem (by simp; omega) fun i h1 h2 => ?_
  simp only [List.getElem_map, List.getElem_range]
  by_cases h : i < k
  · rw [List.getElem_append_left (by simpa using h), List.getElem_replicate]
    unfold digitAt; rw [if_neg (by omega)]
  · rw [List.getElem_append_right (by simpa using h)]
    simp only [List.length_replicate]
    unfold digitAt; rw [if_pos (by omega)]
    have e : (-(k : ℤ) + i).toNat = i - k := by omega
    rw [e]
    simp only [List.length_map, List.length_range] at h1
    simp [List.getD, List.getElem?_eq_getElem (show i - k < ds.length by omega)]

theorem map_digitAt_pos (ds : Bytes) (k : Nat) :
    (List.range (ds.length - k)).map (fun i : Nat => digitAt ds ((k : ℤ) + i)) = ds.drop k := by
  refine List.ext_getElem (by simp) fun i h1 h2 => ?_
  simp only [List.getElem_map, List.getElem_range, List.getElem_drop]
  unfold digitAt; rw [if_pos (by omega)]
  have e : ((k : ℤ) + i).toNat = k + i := by omega
  simp only [List.length_map, List.length_range] at h1
  rw [e]
  simp [List.getD, List.getElem?_eq_getElem (show k + i < ds.length by omega)]

theorem decVal_zeros (k : Nat) (s : Bytes) : decVal (List.replicate k ch%'0' ++ s) = decVal s := by
  induction k with
  | zero => rfl
  | succ n ih =>
    rw [List.replicate_succ, List.cons_append, Duration.decVal_cons, ih]
    simp

theorem isSign_signText (neg : Bool) : IsSign (signText neg) neg := by
  cases neg
  · exact IsSign.none
  · exact IsSign.minus

/-- The parts of a `%f` text: sign, integral digits, fraction digits. -/
theorem layoutF_parts (neg : Bool) (ds : Bytes) (dp : ℤ) (hd : ∀ d ∈ ds, isDigit d = true) (h0 : ds = [] → dp = 0) :
    ∃ ip fp : Bytes, layoutF neg ds dp = signText neg ++ ip ++ (if fp = [] then [] else ch%'.' :: fp) ∧
      (∀ d ∈ ip, isDigit d = true) ∧ (∀ d ∈ fp, isDigit d = true) ∧ ip ≠ [] ∧
      (decVal (ip ++ fp) : ℚ) * 10 ^ (-(fp.length : ℤ)) = decimalVal ds dp ∧
      (ip = (b!"0") ∨ ip.head? = ds.head?) ∧ (fp = [] ∨ fp.getLast? = ds.getLast?) := by
  have hz : isDigit ch%'0' = true := by decide
  by_cases h : 0 < dp
  · obtain ⟨k, rfl⟩ : ∃ k : ℕ, dp = k := ⟨dp.toNat, by omega⟩
    have hds : ds ≠ [] := fun e => by have := h0 e; omega
    have hpos : 0 < ds.length := List.length_pos_of_ne_nil hds
    by_cases hk : k < ds.length
    · refine ⟨ds.take k, ds.drop k, ?_, fun d hd' => hd d (List.mem_of_mem_take hd'),
        fun d hd' => hd d (List.mem_of_mem_drop hd'), ?_, ?_, Or.inr ?_, Or.inr ?_⟩
      · unfold layoutF fmtF
        have e1 : ((ds.length : ℤ) - (k : ℤ)).toNat = ds.length - k := by omega
        have e2 : ds.drop k ≠ [] := by
          intro e
          have := congrArg List.length e
          rw [List.length_drop, List.length_nil] at this; omega
        rw [e1, map_digitAt_pos, if_pos h, if_pos (by omega), if_neg e2]
        have e3 : (k : ℤ).toNat - ds.length = 0 := by omega
        rw [e3]; simp
      · intro e
        have := congrArg List.length e
        rw [List.length_take, List.length_nil] at this; omega
      · unfold decimalVal
        rw [List.take_append_drop, List.length_drop]
        congr 2
        push_cast [Nat.cast_sub hk.le]; ring
      · rw [List.head?_take, if_neg (by omega)]
      · rw [List.getLast?_drop, if_neg (by omega)]
    · refine ⟨ds ++ List.replicate (k - ds.length) ch%'0', [], ?_, ?_, by simp, by simp [hds], ?_, Or.inr ?_, Or.inl rfl⟩
      · unfold layoutF fmtF
        have e1 : ((ds.length : ℤ) - (k : ℤ)).toNat = 0 := by omega
        have e2 : (k : ℤ).toNat = k := by omega
        rw [e1, if_pos h, if_neg (by omega), if_pos rfl, e2, List.take_of_length_le (by omega)]
      · intro d hd'
        rcases List.mem_append.1 hd' with h' | h'
        · exact hd d h'
        · rw [List.eq_of_mem_replicate h']; exact hz
      · unfold decimalVal
        rw [List.append_nil, Duration.decVal_append, List.length_replicate]
        have e3 : decVal (List.replicate (k - ds.length) ch%'0') = 0 := by
          have := decVal_zeros (k - ds.length) []
          rw [List.append_nil] at this; rw [this]; rfl
        have e4 : (k : ℤ) - (ds.length : ℤ) = ((k - ds.length : ℕ) : ℤ) := by omega
        rw [e3, e4, zpow_natCast]; push_cast; simp
      · rw [List.head?_append]
        cases ds with
        | nil => exact absurd rfl hds
        | cons a t => rfl
  · obtain ⟨k, rfl⟩ : ∃ k : ℕ, dp = -(k : ℤ) := ⟨(-dp).toNat, by omega⟩
    have e1 : ((ds.length : ℤ) - -(k : ℤ)).toNat = ds.length + k := by omega
    refine ⟨b!"0", List.replicate k ch%'0' ++ ds, ?_, ?_, ?_, by simp, ?_, Or.inl rfl, ?_⟩
    · unfold layoutF fmtF
      rw [e1, if_neg h, map_digitAt_neg]
      congr 1
      by_cases hp : 0 < ds.length + k
      · have : List.replicate k ch%'0' ++ ds ≠ [] := by
          intro e
          have := congrArg List.length e
          rw [List.length_append, List.length_replicate, List.length_nil] at this; omega
        rw [if_pos hp, if_neg this]
      · have e2 : ds = [] := List.eq_nil_of_length_eq_zero (by omega)
        have e3 : k = 0 := by omega
        rw [if_neg hp, e2, e3]; rfl
    · intro d hd'; simp at hd'; rw [hd']; exact hz
    · intro d hd'
      rcases List.mem_append.1 hd' with h' | h'
      · rw [List.eq_of_mem_replicate h']; exact hz
      · exact hd d h'
    · unfold decimalVal
      have e2 : (b!"0") ++ (List.replicate k ch%'0' ++ ds) = List.replicate (k + 1) ch%'0' ++ ds := rfl
      rw [e2, decVal_zeros]
      congr 2
      simp; ring
    · by_cases hn : ds = []
      · have : k = 0 := by have := h0 hn; omega
        left; rw [hn, this]; rfl
      · right; rw [List.getLast?_append]
        obtain ⟨l, a, rfl⟩ := List.eq_nil_or_concat ds |>.resolve_left hn
        simp

theorem layoutF_numeral (neg : Bool) (ds : Bytes) (dp : ℤ) (hd : ∀ d ∈ ds, isDigit d = true) (h0 : ds = [] → dp = 0) :
    Numeral (layoutF neg ds dp) neg (decimalVal ds dp) := by
  obtain ⟨ip, fp, h1, h2, h3, h4, h5, -⟩ := layoutF_parts neg ds dp hd h0
  have hf : IsFraction (if fp = [] then [] else ch%'.' :: fp) fp := by
    split
    · rename_i e; rw [e]; exact IsFraction.none
    · exact IsFraction.some fp h3
  have := Numeral.mk _ ip _ fp [] neg 0 (isSign_signText neg) h2 hf (by simp [h4]) IsExponent.none (by simp)
  rw [List.append_nil, ← h1, zero_sub, h5] at this
  exact this

theorem digit2 (a c : Nat) (ha : a < 10) (hc : c < 10) :
    decVal [Strconv.digitByte a, Strconv.digitByte c] = 10 * a + c := by
  simp only [decVal, List.foldl, Strconv.digitByte_toNat ha, Strconv.digitByte_toNat hc]; omega

theorem digit3 (a c e : Nat) (ha : a < 10) (hc : c < 10) (he : e < 10) :
    decVal [Strconv.digitByte a, Strconv.digitByte c, Strconv.digitByte e] = 100 * a + 10 * c + e := by
  simp only [decVal, List.foldl, Strconv.digitByte_toNat ha, Strconv.digitByte_toNat hc, Strconv.digitByte_toNat he]; omega

theorem fmtExp_exponent (e : ℤ) (h : e.natAbs < 1000) : IsExponent (fmtExp e) e := by
  obtain ⟨ds, h1, h2, h3, h4⟩ : ∃ ds : Bytes, fmtExp e = ch%'e' :: (if e < 0 then ch%'-' else ch%'+') :: ds ∧
      (∀ d ∈ ds, isDigit d = true) ∧ ds ≠ [] ∧ decVal ds = e.natAbs := by
    unfold fmtExp
    refine ⟨_, rfl, ?_⟩
    split
    · rename_i h10
      refine ⟨?_, by simp, ?_⟩
      · intro d hd
        simp only [List.mem_cons, List.not_mem_nil, or_false] at hd
        rcases hd with rfl | rfl
        · decide
        · exact Strconv.digitByte_isDigit h10
      · have := digit2 0 e.natAbs (by omega) h10
        rw [Nat.mul_zero, Nat.zero_add] at this
        exact this
    · split
      · rename_i h10 h100
        refine ⟨?_, by simp, ?_⟩
        · intro d hd
          simp only [List.mem_cons, List.not_mem_nil, or_false] at hd
          rcases hd with rfl | rfl <;> exact Strconv.digitByte_isDigit (by omega)
        · rw [digit2 _ _ (by omega) (by omega)]; omega
      · refine ⟨?_, by simp, ?_⟩
        · intro d hd
          simp only [List.mem_cons, List.not_mem_nil, or_false] at hd
          rcases hd with rfl | rfl | rfl <;> exact Strconv.digitByte_isDigit (by omega)
        · rw [digit3 _ _ _ (by omega) (by omega) (by omega)]; omega
  rw [h1]
  by_cases hn : e < 0
  · have := IsExponent.some ch%'e' (b!"-") true ds (Or.inl rfl) IsSign.minus h2 h3
    rw [if_pos rfl, h4] at this
    rw [if_pos hn]
    have e1 : -(e.natAbs : ℤ) = e := by omega
    rw [e1] at this
    exact this
  · have := IsExponent.some ch%'e' (b!"+") false ds (Or.inl rfl) IsSign.plus h2 h3
    rw [if_neg (by simp), h4] at this
    rw [if_neg hn]
    have e1 : (e.natAbs : ℤ) = e := by omega
    rw [e1] at this
    exact this

theorem fmtE_numeral (neg : Bool) (ds : Bytes) (dp : ℤ) (hd : ∀ d ∈ ds, isDigit d = true) (h0 : ds = [] → dp = 0)
    (hb : (dp - 1).natAbs < 1000) : Numeral (fmtE neg ds dp) neg (decimalVal ds dp) := by
  cases ds with
  | nil =>
    have := Numeral.mk _ (b!"0") [] [] _ neg 0 (isSign_signText neg) (by decide) IsFraction.none (by simp)
      (fmtExp_exponent 0 (by simp)) (by simp)
    unfold fmtE decimalVal
    simp only [List.length_nil, if_true] at this ⊢
    have e1 : decVal ((b!"0") ++ ([] : Bytes)) = decVal [] := rfl
    rw [e1] at this
    rw [h0 rfl]
    exact this
  | cons a t =>
    have hf : IsFraction (if 0 < t.length then ch%'.' :: t else []) t := by
      split
      · exact IsFraction.some t fun d hd' => hd d (List.mem_cons_of_mem _ hd')
      · have : t = [] := List.eq_nil_of_length_eq_zero (by omega)
        rw [this]; exact IsFraction.none
    have := Numeral.mk _ [a] _ t _ neg (dp - 1) (isSign_signText neg) (by intro d hd'; simp at hd'; exact hd d (by simp [hd']))
      hf (by simp) (fmtExp_exponent (dp - 1) hb) (by omega)
    unfold fmtE decimalVal
    have e1 : dp - ((a :: t).length : ℤ) = dp - 1 - (t.length : ℤ) := by simp; ring
    rw [e1]
    simpa using this

theorem decVal_zero_cons (t : Bytes) : decVal (ch%'0' :: t) = decVal t := decVal_zeros 1 t

/-- A shortest sequence does not begin with 0. -/
theorem shortest_head {b y : Nat} {ds : Bytes} {dp : ℤ} (h : Shortest b y ds dp) : ds.head? ≠ some ch%'0' := by
  intro he
  cases ds with
  | nil => cases he
  | cons a t =>
    simp only [List.head?_cons, Option.some.injEq] at he
    subst he
    have := h.least t (dp - 1) (fun d hd => h.digits d (List.mem_cons_of_mem _ hd)) (by
      rw [← h.reads]
      unfold decimalVal
      rw [decVal_zero_cons]
      congr 3
      simp; ring)
    simp at this

/-- A shortest sequence does not end with 0. -/
theorem shortest_last {b y : Nat} {ds : Bytes} {dp : ℤ} (h : Shortest b y ds dp) : ds.getLast? ≠ some ch%'0' := by
  intro he
  rcases List.eq_nil_or_concat ds with rfl | ⟨l, a, rfl⟩
  · cases he
  · rw [List.concat_eq_append] at h he
    rw [List.getLast?_concat, Option.some.injEq] at he
    subst he
    have := h.least l dp (fun d hd => h.digits d (by simp [hd])) (by
      rw [← h.reads]
      unfold decimalVal
      rw [Strconv.decVal_snoc]
      have e1 : dp - ((l ++ [ch%'0']).length : ℤ) = (dp - (l.length : ℤ)) + (-1) := by simp; ring
      rw [e1, zpow_add₀ (by norm_num)]
      congr 1
      simp
      field_simp)
    simp at this

/-- Bounds of a number given by digits. -/
theorem decimalVal_bounds {ds : Bytes} {dp : ℤ} (hd : ∀ d ∈ ds, isDigit d = true) (hh : ds.head? ≠ some ch%'0')
    (hne : ds ≠ []) : (10 : ℚ) ^ (dp - 1) ≤ decimalVal ds dp ∧ decimalVal ds dp < 10 ^ dp := by
  cases ds with
  | nil => exact absurd rfl hne
  | cons a t =>
    have ha := hd a (by simp)
    have ha0 : a ≠ ch%'0' := fun e => hh (by simp [e])
    have ha1 : 1 ≤ a.toNat - 48 := by
      unfold isDigit at ha
      simp only [Bool.and_eq_true, decide_eq_true_eq] at ha
      have : a.toNat ≠ 48 := fun e => ha0 (UInt8.toNat_inj.1 e)
      omega
    have h1 : 10 ^ t.length ≤ decVal (a :: t) := by
      rw [Duration.decVal_cons]
      have := Nat.mul_le_mul_right (10 ^ t.length) ha1
      omega
    have h2 : decVal (a :: t) < 10 ^ (t.length + 1) := Duration.decVal_lt hd
    unfold decimalVal
    have h1' : (10 : ℚ) ^ t.length ≤ decVal (a :: t) := by exact_mod_cast h1
    have h2' : (decVal (a :: t) : ℚ) < 10 ^ (t.length + 1) := by exact_mod_cast h2
    have hp : (0 : ℚ) < 10 ^ (dp - ((a :: t).length : ℤ)) := zpow_pos (by norm_num) _
    constructor
    · have := mul_le_mul_of_nonneg_right h1' hp.le
      refine le_trans (le_of_eq ?_) this
      rw [← zpow_natCast, ← zpow_add₀ (by norm_num)]
      congr 1; simp; ring
    · have := mul_lt_mul_of_pos_right h2' hp
      refine lt_of_lt_of_eq this ?_
      rw [← zpow_natCast, ← zpow_add₀ (by norm_num)]
      congr 1; simp

theorem shortest_nil {b y : Nat} {ds : Bytes} {dp : ℤ} (h : Shortest b y ds dp) : ds = [] ↔ y = 0 := by
  constructor
  · intro e
    have := h.reads
    rw [e] at this
    rw [← this]
    simp [decimalVal, decVal, nearBits]
  · intro e
    have := h.least [] 0 (by simp) (by rw [e]; simp [decimalVal, decVal, nearBits])
    exact List.eq_nil_of_length_eq_zero (by simpa using this)

theorem two_ten (m n : ℕ) (h : 2 ^ m ≤ 10 ^ n) : pow2 (m : ℤ) ≤ 10 ^ (n : ℤ) ∧ (10 : ℚ) ^ (-(n : ℤ)) ≤ pow2 (-(m : ℤ)) := by
  have h' : (2 : ℚ) ^ m ≤ 10 ^ n := by exact_mod_cast h
  rw [pow2_eq, pow2_eq, zpow_neg, zpow_neg, zpow_natCast, zpow_natCast]
  exact ⟨h', inv_anti₀ (by positivity) h'⟩

/-- The decimal exponent of a shortest sequence of digits of a finite number. -/
theorem shortest_exponent {b y : Nat} (hb : b = 32 ∨ b = 64) (hy : y < expMax b * 2 ^ mantBits b) {ds : Bytes} {dp : ℤ}
    (h : Shortest b y ds dp) : (dp - 1).natAbs < 1000 := by
  by_cases hne : ds = []
  · rw [h.zero hne]; decide
  obtain ⟨h1, h2⟩ := decimalVal_bounds h.digits (shortest_head h) hne (dp := dp)
  have hy0 : y ≠ 0 := fun e => hne ((shortest_nil h).2 e)
  have hup : dp - 1 < 400 := by
    by_contra hc
    have hc := not_lt.1 hc
    have hbig : pow2 (minExp b + expMax b + mantBits b - 1) ≤ decimalVal ds dp := by
      have e1 : (10 : ℚ) ^ (400 : ℤ) ≤ 10 ^ (dp - 1) := zpow_le_zpow_right₀ (by norm_num) hc
      refine le_trans ?_ (e1.trans h1)
      have : pow2 (minExp b + expMax b + mantBits b - 1) ≤ pow2 1024 := by
        refine pow2_mono ?_
        rcases hb with rfl | rfl <;> decide
      refine this.trans ?_
      exact (two_ten 1024 400 (by decide +kernel)).1
    have := nearBits_big b _ hbig
    rw [h.reads] at this
    omega
  have hlo : -400 < dp - 1 := by
    by_contra hc
    have hc := not_lt.1 hc
    have htiny : decimalVal ds dp < pow2 (minExp b - 1) := by
      have e1 : (10 : ℚ) ^ dp ≤ 10 ^ (-399 : ℤ) := zpow_le_zpow_right₀ (by norm_num) (by omega)
      refine lt_of_lt_of_le h2 (e1.trans ?_)
      have : pow2 (-1075) ≤ pow2 (minExp b - 1) := by
        refine pow2_mono ?_
        rcases hb with rfl | rfl <;> decide
      refine le_trans ?_ this
      exact (two_ten 1075 399 (by decide +kernel)).2
    have := nearBits_tiny b _ htiny
    rw [h.reads] at this
    exact hy0 this
  omega

theorem layoutG_numeral {b y : Nat} (hb : b = 32 ∨ b = 64) (hy : y < expMax b * 2 ^ mantBits b) {ds : Bytes} {dp : ℤ}
    (h : Shortest b y ds dp) (neg : Bool) : Numeral (layoutG neg ds dp) neg (decimalVal ds dp) := by
  unfold layoutG
  split
  · exact fmtE_numeral neg ds dp h.digits h.zero (shortest_exponent hb hy h)
  · exact layoutF_numeral neg ds dp h.digits h.zero

/-! ### Reading back -/

theorem withSign_abs {b x : Nat} (hb : 0 < b) (h : x < 2 ^ b) : withSign b (signBit b x) (absBits b x) = x := by
  obtain ⟨c, rfl⟩ : ∃ c, b = c + 1 := ⟨b - 1, by omega⟩
  unfold withSign signBit absBits
  rw [Nat.add_sub_cancel]
  rw [pow_succ] at h
  by_cases hx : 2 ^ c ≤ x
  · rw [if_pos (by simpa using hx), Nat.mod_eq_sub_mod hx, Nat.mod_eq_of_lt (by omega)]; omega
  · rw [if_neg (by simpa using hx), Nat.mod_eq_of_lt (by omega)]

theorem formatG_parse {io : FloatIO} (h : GoFloats io) {b : Nat} (hb : b = 32 ∨ b = 64) {x : Nat} (hx : FiniteBits b x) :
    io.parse b (io.formatG b x) = some x := by
  obtain ⟨ds, dp, h1, h2⟩ := h.formatG b hb x hx
  rw [h2, h.parse b hb _ _ _ (layoutG_numeral hb hx.2 h1 _), h1.reads, if_pos hx.2,
    withSign_abs (by rcases hb with rfl | rfl <;> decide) hx.1]

theorem formatF_parse {io : FloatIO} (h : GoFloats io) {x : Nat} (hx : FiniteBits 64 x) :
    io.parse 64 (io.formatF x) = some x := by
  obtain ⟨ds, dp, h1, h2⟩ := h.formatF x hx
  rw [h2, h.parse 64 (Or.inr rfl) _ _ _ (layoutF_numeral _ ds dp h1.digits h1.zero), h1.reads, if_pos hx.2,
    withSign_abs (by decide) hx.1]

theorem sign_graphic {sg : Bytes} {neg : Bool} (h : IsSign sg neg) : ∀ d ∈ sg, Graphic d := by
  cases h <;> decide

theorem numeral_graphic {s : Bytes} {neg : Bool} {q : ℚ} (h : Numeral s neg q) : (∀ d ∈ s, Graphic d) ∧ s ≠ [] ∧
    ∃ d ∈ s, isDigit d = true := by
  obtain ⟨sg, ip, fr, fp, ex, neg, e, hs, hi, hf, hne, he, hb⟩ := h
  have hfr : ∀ d ∈ fr, Graphic d := by
    cases hf with
    | none => simp
    | some fp hd =>
      intro d hd'
      rcases List.mem_cons.1 hd' with rfl | hd'
      · decide
      · exact digit_graphic d (hd d hd')
  have hex : ∀ d ∈ ex, Graphic d := by
    cases he with
    | none => simp
    | some c sg neg ds hc hs hd hne =>
      intro d hd'
      rcases List.mem_cons.1 hd' with rfl | hd'
      · rcases hc with rfl | rfl <;> decide
      · rcases List.mem_append.1 hd' with hd' | hd'
        · exact sign_graphic hs d hd'
        · exact digit_graphic d (hd d hd')
  have hdig : ∃ d ∈ sg ++ ip ++ fr ++ ex, isDigit d = true := by
    cases hip : ip with
    | cons a t => exact ⟨a, by simp, hi a (by simp [hip])⟩
    | nil =>
      cases hf with
      | none => rw [hip] at hne; exact absurd rfl hne
      | some fp hd =>
        cases hfp : fp with
        | nil => rw [hip, hfp] at hne; exact absurd rfl hne
        | cons a t => exact ⟨a, by simp, hd a (by simp [hfp])⟩
  refine ⟨?_, ?_, hdig⟩
  · intro d hd
    simp only [List.mem_append] at hd
    rcases hd with ((hd | hd) | hd) | hd
    · exact sign_graphic hs d hd
    · exact digit_graphic d (hi d hd)
    · exact hfr d hd
    · exact hex d hd
  · obtain ⟨d, hd, -⟩ := hdig
    exact List.ne_nil_of_mem hd

/-- Every pattern is finite, infinite or a NaN. -/
theorem bits_cases {b : Nat} (hb : b = 32 ∨ b = 64) {x : Nat} (h : x < 2 ^ b) : FiniteBits b x ∨
    x = expMax b * 2 ^ mantBits b ∨ x = 2 ^ (b - 1) + expMax b * 2 ^ mantBits b ∨ NaNBits b x := by
  unfold FiniteBits NaNBits absBits
  rcases hb with rfl | rfl
  · have e : expMax 32 * 2 ^ mantBits 32 = 2139095040 := by decide +kernel
    rw [e]
    norm_num at h ⊢
    omega
  · have e : expMax 64 * 2 ^ mantBits 64 = 9218868437227405312 := by decide +kernel
    rw [e]
    norm_num at h ⊢
    omega

/-- The requirement on floating-point numbers in the round trip of documents holds for every number. -/
theorem leafOk_float {io : FloatIO} (h : GoFloats io) {b : Nat} (hb : b = 32 ∨ b = 64) {x : Nat} (hx : x < 2 ^ b) :
    LeafOk io (.float b) (.float x) := by
  rcases bits_cases hb hx with hx | rfl | rfl | hx
  · obtain ⟨ds, dp, h1, h2⟩ := h.formatG b hb x hx
    have hn := layoutG_numeral hb hx.2 h1 (signBit b x)
    rw [← h2] at hn
    obtain ⟨hg, hne, -⟩ := numeral_graphic hn
    refine ⟨graphic_clean _ hg, hne, x, ?_, Or.inl rfl⟩
    rw [graphic_trim _ hg]
    exact formatG_parse h hb hx
  · simp only [LeafOk]
    rw [(h.formatG_inf b hb).1]
    refine ⟨by decide, by decide, _, ?_, Or.inl rfl⟩
    rw [graphic_trim _ (by decide)]
    exact (h.parseG_inf b hb).1
  · simp only [LeafOk]
    rw [(h.formatG_inf b hb).2]
    refine ⟨by decide, by decide, _, ?_, Or.inl rfl⟩
    rw [graphic_trim _ (by decide)]
    exact (h.parseG_inf b hb).2
  · simp only [LeafOk]
    rw [h.formatG_nan b hb x hx]
    obtain ⟨y, h1, h2⟩ := h.parseG_nan b hb
    refine ⟨by decide, by decide, y, ?_, Or.inr ⟨hx, h2⟩⟩
    rw [graphic_trim _ (by decide)]
    exact h1

theorem leafOk_floatInf {io : FloatIO} (h : GoFloats io) {x : Nat} (hx : x < 2 ^ 64) :
    LeafOk io .floatInf (.float x) := by
  have einf : expMax 64 * 2 ^ mantBits 64 = infBits := by decide +kernel
  rcases bits_cases (Or.inr rfl) hx with hx | hx | rfl | hx
  · right
    obtain ⟨ds, dp, h1, h2⟩ := h.formatF x hx
    have hn := layoutF_numeral (signBit 64 x) ds dp h1.digits h1.zero
    rw [← h2] at hn
    obtain ⟨hg, hne, hdig⟩ := numeral_graphic hn
    refine ⟨graphic_clean _ hg, ?_, x, formatF_parse h hx, Or.inl rfl⟩
    intro e
    rw [e] at hdig
    revert hdig; decide
  · exact Or.inl (hx.trans einf)
  · right
    have e : io.formatF (2 ^ (64 - 1) + expMax 64 * 2 ^ mantBits 64) = (b!"-Inf") := by rw [einf]; exact h.formatF_ninf
    rw [e]
    exact ⟨by decide, by decide, _, by rw [einf]; exact h.parse_ninf, Or.inl rfl⟩
  · right
    have hx' : IsNaN64 x := by unfold IsNaN64; rw [← einf]; exact hx
    rw [h.formatF_nan x hx']
    obtain ⟨y, h1, h2⟩ := h.parse_nan
    exact ⟨by decide, by decide, y, h1, Or.inr ⟨hx, by unfold IsNaN64 at h2; unfold NaNBits; rw [einf]; exact h2⟩⟩

end Verif.FloatText
