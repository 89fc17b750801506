import Verif.FloatText
import Verif.KRfl

/-
C22: floating-point attributes.  An implementation of the contract of `strconv` (Verif/FloatText.lean) and the theorems about
`FloatInf64` (`/repo/mpd/mpd.go` 1224-1250).
-/
namespace Verif.FloatText

open Verif Verif.Bind Verif.Xml

/-! ### An implementation of the contract -/

/-- Every number has finitely many decimal digits. -/
theorem exists_digits (b y : Nat) : ∃ ds dp, (∀ d ∈ ds, isDigit d = true) ∧ nearBits b (decimalVal ds dp) = y := by
  obtain ⟨n, k, hq⟩ : ∃ (n : ℕ) (k : ℕ), magOf b y = (n : ℚ) * (10 : ℚ) ^ (-(k : ℤ)) := by
    have hp : ∀ (m : ℕ) (e : ℤ), ∃ (n : ℕ) (k : ℕ), (m : ℚ) * pow2 e = (n : ℚ) * (10 : ℚ) ^ (-(k : ℤ)) := by
      intro m e
      cases e with
      | ofNat j => exact ⟨m * 2 ^ j, 0, by simp [pow2]⟩
      | negSucc j =>
        refine ⟨m * 5 ^ (j + 1), j + 1, ?_⟩
        have h10 : (10 : ℚ) ^ (j + 1) = 2 ^ (j + 1) * 5 ^ (j + 1) := by rw [← mul_pow]; norm_num
        rw [zpow_neg, zpow_natCast, h10]
        simp only [pow2]
        push_cast
        field_simp
    unfold magOf
    split
    · exact hp _ _
    · exact hp _ _
  refine ⟨Strconv.formatUint n, ((Strconv.formatUint n).length : ℤ) - k, Strconv.formatUint_digits n, ?_⟩
  have : decimalVal (Strconv.formatUint n) (((Strconv.formatUint n).length : ℤ) - k) = magOf b y := by
    unfold decimalVal
    rw [hq, Strconv.formatUint_val]
    congr 2; ring
  rw [this, nearBits_magOf]

/-- Every number has a shortest sequence of digits. -/
theorem exists_shortest (b y : Nat) : ∃ ds dp, Shortest b y ds dp := by
  classical
  have hex : ∃ n, ∃ ds dp, (∀ d ∈ ds, isDigit d = true) ∧ nearBits b (decimalVal ds dp) = y ∧ ds.length = n := by
    obtain ⟨ds, dp, h1, h2⟩ := exists_digits b y
    exact ⟨_, ds, dp, h1, h2, rfl⟩
  obtain ⟨ds, dp, h1, h2, h3⟩ := Nat.find_spec hex
  have hleast : ∀ ds' dp', (∀ d ∈ ds', isDigit d = true) → nearBits b (decimalVal ds' dp') = y → ds.length ≤ ds'.length := by
    intro ds' dp' h1' h2'
    rw [h3]
    exact Nat.find_min' hex ⟨ds', dp', h1', h2', rfl⟩
  by_cases hne : ds = []
  · refine ⟨[], 0, by simp, ?_, by simp, fun _ => rfl⟩
    rw [← h2, hne]; simp [decimalVal, decVal]
  · exact ⟨ds, dp, h1, h2, hleast, fun e => absurd e hne⟩

/-- The digits chosen. -/
noncomputable def digitsOf (b y : Nat) : Bytes × ℤ :=
  ⟨(exists_shortest b y).choose, (exists_shortest b y).choose_spec.choose⟩

theorem digitsOf_shortest (b y : Nat) : Shortest b y (digitsOf b y).1 (digitsOf b y).2 :=
  (exists_shortest b y).choose_spec.choose_spec

/-- The loop for the digits of an exponent in `readFloat` of `strconv`, which stops counting at 10000. -/
def capExp (ds : Bytes) : Nat := ds.foldl (fun e d => if e < 10000 then e * 10 + (d.toNat - 48) else e) 0

/-- Sign and rest. -/
def takeSign : Bytes → Bool × Bytes
  | c :: t => if c = ch%'+' then (false, t) else if c = ch%'-' then (true, t) else (false, c :: t)
  | [] => (false, [])

/-- Exponent. -/
def takeExp : Bytes → Option ℤ
  | [] => some 0
  | c :: t =>
    if c = ch%'e' ∨ c = ch%'E' then
      (if (takeSign t).2 ≠ [] ∧ (takeSign t).2.all isDigit = true then
        some (if (takeSign t).1 then -(capExp (takeSign t).2 : ℤ) else capExp (takeSign t).2)
      else none)
    else none

/-- Digits of the fraction and rest. -/
def takeFrac : Bytes → Bytes × Bytes
  | c :: t => if c = ch%'.' then (t.takeWhile isDigit, t.dropWhile isDigit) else ([], c :: t)
  | [] => ([], [])

/-- `ParseFloat` for decimal numerals, `NaN` and infinities in the spelling of `FormatFloat`.  Digit separators and
hexadecimal numerals, which the library accepts too, are left out. -/
def parseFloat (b : Nat) (s : Bytes) : Option Nat :=
  let neg := (takeSign s).1
  let ip := (takeSign s).2.takeWhile isDigit
  let r := (takeSign s).2.dropWhile isDigit
  let fp := (takeFrac r).1
  if ip ++ fp = [] then
    (if s = (b!"NaN") then some (2 ^ (b - 1) - 2 ^ (mantBits b - 1) + 1)
     else if s = (b!"+Inf") ∨ s = (b!"Inf") then some (expMax b * 2 ^ mantBits b)
     else if s = (b!"-Inf") then some (2 ^ (b - 1) + expMax b * 2 ^ mantBits b)
     else none)
  else match takeExp (takeFrac r).2 with
    | none => none
    | some e =>
      if nearBits b ((decVal (ip ++ fp) : ℚ) * 10 ^ (e - fp.length)) < expMax b * 2 ^ mantBits b then
        some (withSign b neg (nearBits b ((decVal (ip ++ fp) : ℚ) * 10 ^ (e - fp.length))))
      else none

theorem parseFloat_bits (b : Nat) (s : Bytes) (x : Nat) (hb : b = 32 ∨ b = 64) (h : parseFloat b s = some x) : x < 2 ^ b := by
  have k1 : 2 ^ (b - 1) - 2 ^ (mantBits b - 1) + 1 < 2 ^ b ∧ 2 ^ (b - 1) + expMax b * 2 ^ mantBits b < 2 ^ b := by
    rcases hb with rfl | rfl <;> decide +kernel
  unfold parseFloat at h
  simp only at h
  generalize hK : expMax b * 2 ^ mantBits b = K at *
  generalize hN : 2 ^ (b - 1) - 2 ^ (mantBits b - 1) + 1 = N at *
  generalize hH : 2 ^ (b - 1) = H at *
  generalize hT : 2 ^ b = T at *
  split at h
  · split at h
    · injection h with h; omega
    · split at h
      · injection h with h; omega
      · split at h
        · injection h with h; omega
        · cases h
  · split at h
    · cases h
    · split at h
      · injection h with h
        rw [← h]
        unfold withSign
        split <;> omega
      · cases h

/-- An implementation of the contract. -/
noncomputable def goFloat (arch : Duration.Arch) : FloatIO where
  formatG b x := if FiniteBits b x then layoutG (signBit b x) (digitsOf b (absBits b x)).1 (digitsOf b (absBits b x)).2
    else if absBits b x = expMax b * 2 ^ mantBits b then (if signBit b x then (b!"-Inf") else (b!"+Inf"))
    else (b!"NaN")
  formatF x := if FiniteBits 64 x then layoutF (signBit 64 x) (digitsOf 64 (absBits 64 x)).1 (digitsOf 64 (absBits 64 x)).2
    else if absBits 64 x = infBits then (if signBit 64 x then (b!"-Inf") else (b!"+Inf"))
    else (b!"NaN")
  parse := parseFloat
  arch := arch
  parse_bits := parseFloat_bits

theorem capExp_eq (ds : Bytes) (h : decVal ds < 10000) : capExp ds = decVal ds := by
  induction ds using List.reverseRecOn with
  | nil => rfl
  | append_singleton l a ih =>
    rw [Strconv.decVal_snoc] at h ⊢
    have ih := ih (by omega)
    unfold capExp at ih ⊢
    rw [List.foldl_append]
    simp only [List.foldl_cons, List.foldl_nil]
    rw [ih, if_pos (by omega)]
    omega

theorem takeSign_of {sg : Bytes} {neg : Bool} (h : IsSign sg neg) {t : Bytes}
    (ht : ∀ c, t.head? = some c → c ≠ ch%'+' ∧ c ≠ ch%'-') : takeSign (sg ++ t) = (neg, t) := by
  cases h with
  | none =>
    cases t with
    | nil => rfl
    | cons c t =>
      obtain ⟨h1, h2⟩ := ht c rfl
      simp [takeSign, h1, h2]
  | plus => rfl
  | minus => rfl

theorem takeExp_of {ex : Bytes} {e : ℤ} (h : IsExponent ex e) (hb : e.natAbs < 10000) : takeExp ex = some e := by
  cases h with
  | none => rfl
  | some c sg neg ds hc hs hd hne =>
    have ht : takeSign (sg ++ ds) = (neg, ds) := by
      refine takeSign_of hs fun c hc => ?_
      have := hd c (List.mem_of_mem_head? hc)
      constructor <;> · rintro rfl; revert this; decide
    have hv : decVal ds < 10000 := by
      cases neg <;> simp at hb <;> omega
    unfold takeExp
    dsimp only
    rw [if_pos hc, ht, if_pos ⟨hne, by simpa using hd⟩, capExp_eq _ hv]

theorem exponent_head {ex : Bytes} {e : ℤ} (h : IsExponent ex e) : ∀ c, ex.head? = some c → isDigit c = false ∧ c ≠ ch%'.' := by
  cases h with
  | none => simp
  | some c sg neg ds hc hs hd hne =>
    intro d hd'
    simp only [List.head?_cons, Option.some.injEq] at hd'
    subst hd'
    rcases hc with rfl | rfl <;> decide

theorem takeWhile_stop {l r : Bytes} (hl : ∀ d ∈ l, isDigit d = true) (hr : ∀ c, r.head? = some c → isDigit c = false) :
    (l ++ r).takeWhile isDigit = l ∧ (l ++ r).dropWhile isDigit = r := by
  have h1 : r.takeWhile isDigit = [] ∧ r.dropWhile isDigit = r := by
    cases r with
    | nil => simp
    | cons c t => have := hr c rfl; simp [this]
  rw [List.takeWhile_append_of_pos hl, List.dropWhile_append_of_pos hl, h1.1, h1.2]
  simp

theorem parseFloat_numeral (b : Nat) {s : Bytes} {neg : Bool} {q : ℚ} (h : Numeral s neg q) : parseFloat b s =
    if nearBits b q < expMax b * 2 ^ mantBits b then some (withSign b neg (nearBits b q)) else none := by
  obtain ⟨sg, ip, fr, fp, ex, neg, e, hs, hi, hf, hne, he, hb⟩ := h
  have hex := exponent_head he
  have hfr : takeFrac (fr ++ ex) = (fp, ex) := by
    cases hf with
    | none =>
      cases hx : ex with
      | nil => rfl
      | cons c t =>
        have := (hex c (by rw [hx]; rfl)).2
        simp [takeFrac, this]
    | some fp hd =>
      obtain ⟨h1, h2⟩ := takeWhile_stop hd (fun c hc => (hex c hc).1)
      simp [takeFrac, h1, h2]
  have hfe : ∀ c, (fr ++ ex).head? = some c → isDigit c = false := by
    cases hf with
    | none => exact fun c hc => (hex c hc).1
    | some fp hd =>
      intro c hc
      simp only [List.cons_append, List.head?_cons, Option.some.injEq] at hc
      subst hc; decide
  obtain ⟨h1, h2⟩ := takeWhile_stop hi hfe
  have hsg : takeSign (sg ++ (ip ++ (fr ++ ex))) = (neg, ip ++ (fr ++ ex)) := by
    refine takeSign_of hs fun c hc => ?_
    have hc' : isDigit c = true ∨ c = ch%'.' := by
      cases ip with
      | cons a t =>
        simp only [List.cons_append, List.head?_cons, Option.some.injEq] at hc
        exact Or.inl (hi c (by simp [hc]))
      | nil =>
        cases hf with
        | none => exact absurd rfl hne
        | some fp hd =>
          simp only [List.nil_append, List.cons_append, List.head?_cons, Option.some.injEq] at hc
          exact Or.inr hc.symm
    rcases hc' with hc' | hc'
    · constructor <;> · rintro rfl; revert hc'; decide
    · subst hc'; decide
  have e1 : sg ++ ip ++ fr ++ ex = sg ++ (ip ++ (fr ++ ex)) := by simp
  rw [e1]
  unfold parseFloat
  simp only [hsg, h1, h2, hfr, if_neg hne, takeExp_of he hb]

theorem goFloat_parse (arch : Duration.Arch) : (goFloat arch).parse = parseFloat := by unfold goFloat; rfl

/-- The contract is met. -/
theorem goFloat_ok (arch : Duration.Arch) : GoFloats (goFloat arch) where
  formatF x hx := ⟨_, _, digitsOf_shortest 64 (absBits 64 x), by simp only [goFloat, if_pos hx]⟩
  formatG b _ x hx := ⟨_, _, digitsOf_shortest b (absBits b x), by simp only [goFloat, if_pos hx]⟩
  parse b _ s neg q h := parseFloat_numeral b h
  formatF_nan x hx := by
    have h1 : ¬ FiniteBits 64 x := by
      intro h
      have h2 := h.2
      have h3 := hx.2
      have : expMax 64 * 2 ^ mantBits 64 = infBits := by decide +kernel
      omega
    have h4 : absBits 64 x ≠ infBits := by have := hx.2; omega
    simp only [goFloat, if_neg h1, if_neg h4]
  formatF_ninf := by
    have h1 : ¬ FiniteBits 64 (2 ^ 63 + infBits) := by decide +kernel
    have h2 : absBits 64 (2 ^ 63 + infBits) = infBits := by decide +kernel
    have h3 : signBit 64 (2 ^ 63 + infBits) = true := by decide +kernel
    simp only [goFloat, if_neg h1, if_pos h2, h3, if_true]
  parse_nan := ⟨2 ^ 63 - 2 ^ 51 + 1, by rw [goFloat_parse]; decide +kernel, by unfold IsNaN64; decide +kernel⟩
  parse_ninf := by rw [goFloat_parse]; decide +kernel
  parse_inf := by rw [goFloat_parse]; decide +kernel
  formatG_nan b hb x hx := by
    have h1 : ¬ FiniteBits b x := by intro h; have h2 := h.2; have h3 := hx.2; omega
    have h4 : absBits b x ≠ expMax b * 2 ^ mantBits b := by have := hx.2; omega
    simp only [goFloat, if_neg h1, if_neg h4]
  formatG_inf b hb := by
    have key : ∀ b, b = 32 ∨ b = 64 → ¬ FiniteBits b (expMax b * 2 ^ mantBits b) ∧
        ¬ FiniteBits b (2 ^ (b - 1) + expMax b * 2 ^ mantBits b) ∧
        absBits b (expMax b * 2 ^ mantBits b) = expMax b * 2 ^ mantBits b ∧
        absBits b (2 ^ (b - 1) + expMax b * 2 ^ mantBits b) = expMax b * 2 ^ mantBits b ∧
        signBit b (expMax b * 2 ^ mantBits b) = false ∧ signBit b (2 ^ (b - 1) + expMax b * 2 ^ mantBits b) = true := by
      rintro b (rfl | rfl) <;> decide +kernel
    obtain ⟨h1, h2, h3, h4, h5, h6⟩ := key b hb
    constructor
    · simp only [goFloat, if_neg h1, if_pos h3, h5]; rfl
    · simp only [goFloat, if_neg h2, if_pos h4, h6]; rfl
  parseG_nan b hb := by
    rw [goFloat_parse]
    rcases hb with rfl | rfl
    · exact ⟨2 ^ 31 - 2 ^ 22 + 1, by decide +kernel, by unfold NaNBits; decide +kernel⟩
    · exact ⟨2 ^ 63 - 2 ^ 51 + 1, by decide +kernel, by unfold NaNBits; decide +kernel⟩
  parseG_inf b hb := by rw [goFloat_parse]; rcases hb with rfl | rfl <;> decide +kernel

-- Concrete numerals of 64 and 32 bits (checks of the definitions): 0.1, the largest number, a subnormal number, overflow,
-- a tie.
example : parseFloat 64 (b!"0.1") = some 0x3FB999999999999A ∧ parseFloat 64 (b!"-1.5e+03") = some 0xC097700000000000 ∧
    parseFloat 64 (b!"1.7976931348623157e308") = some 0x7FEFFFFFFFFFFFFF ∧ parseFloat 64 (b!"5e-324") = some 1 ∧
    parseFloat 64 (b!"1.8e308") = none ∧ parseFloat 64 (b!"9007199254740993") = some 0x4340000000000000 ∧
    parseFloat 32 (b!"0.1") = some 0x3DCCCCCD ∧ parseFloat 64 (b!"1.5x") = none ∧ parseFloat 64 (b!".") = none ∧
    parseFloat 64 (b!"NaN") = some 0x7FF8000000000001 := by decide +kernel

-- Layouts: 0.5, 1234.5, 1e21 and 0.00001.
example : layoutF false (b!"5") 0 = (b!"0.5") ∧ layoutF true (b!"12345") 4 = (b!"-1234.5") ∧
    layoutF false (b!"1") 22 = (b!"1000000000000000000000") ∧ layoutF false (b!"1") (-4) = (b!"0.00001") ∧
    layoutF true [] 0 = (b!"-0") ∧ layoutG false (b!"1") 22 = (b!"1e+21") ∧ layoutG false (b!"125") (-4) = (b!"1.25e-05") ∧
    layoutG false (b!"12") 6 = (b!"120000") ∧ layoutG false (b!"12") 7 = (b!"1.2e+06") ∧
    layoutG true (b!"5") (-323) = (b!"-5e-324") := by decide +kernel

/-! ### C22 -/

/-- Plain decimal notation: an optional `-`, digits without a needless leading zero, and a fraction without a needless
trailing zero unless it is empty; no exponent. -/
def Plain (s : Bytes) : Prop := ∃ sg ip fp : Bytes, s = sg ++ ip ++ (if fp = [] then [] else ch%'.' :: fp) ∧
  (sg = [] ∨ sg = (b!"-")) ∧ (∀ d ∈ ip, isDigit d = true) ∧ (∀ d ∈ fp, isDigit d = true) ∧ ip ≠ [] ∧
  (ip = (b!"0") ∨ ip.head? ≠ some ch%'0') ∧ fp.getLast? ≠ some ch%'0'

/-- **C22**, infinity: written as `INF`, and `INF` is read as infinity, whatever `strconv` does. -/
theorem C22_inf (io : FloatIO) : simpleAttr io .floatInf (.float infBits) = .ok (b!"INF") ∧
    readSimpleAttr io .floatInf (b!"INF") = .ok (.float infBits) :=
  ⟨rfl, rfl⟩

/-- **C22**, finite values: written in plain decimal notation and read back with the same bits, by any implementation of the
contract of `strconv`.  Missing for the full statement: `-Inf` and NaN, for which it is false (`C22_refuted`). -/
theorem C22_finite_partial (io : FloatIO) (h : GoFloats io) (x : Nat) (hx : FiniteBits 64 x) :
    ∃ s, simpleAttr io .floatInf (.float x) = .ok s ∧ Plain s ∧ s ≠ (b!"INF") ∧
      readSimpleAttr io .floatInf s = .ok (.float x) := by
  have hinf : x ≠ infBits := by rintro rfl; revert hx; decide +kernel
  obtain ⟨ds, dp, h1, h2⟩ := h.formatF x hx
  have hl := leafOk_floatInf h hx.1
  obtain ⟨-, h3, -⟩ := hl.resolve_left hinf
  have h4 := formatF_parse h hx
  refine ⟨io.formatF x, ?_, ?_, h3, ?_⟩
  · simp only [simpleAttr, floatInfText, if_neg hinf]
  · obtain ⟨ip, fp, p1, p2, p3, p4, -, p5, p6⟩ := layoutF_parts (signBit 64 x) ds dp h1.digits h1.zero
    refine ⟨signText (signBit 64 x), ip, fp, by rw [h2, p1], ?_, p2, p3, p4, ?_, ?_⟩
    · cases signBit 64 x
      · exact Or.inl rfl
      · exact Or.inr rfl
    · rcases p5 with p5 | p5
      · exact Or.inl p5
      · right; rw [p5]; exact shortest_head h1
    · rcases p6 with p6 | p6
      · rw [p6]; simp
      · rw [p6]; exact shortest_last h1
  · simp only [readSimpleAttr, if_neg h3, h4]

/-- No text of a finite value is read as another one: the written text determines the value. -/
theorem C22_injective (io : FloatIO) (h : GoFloats io) (x y : Nat) (hx : x = infBits ∨ FiniteBits 64 x)
    (hy : y = infBits ∨ FiniteBits 64 y) (he : simpleAttr io .floatInf (.float x) = simpleAttr io .floatInf (.float y)) :
    x = y := by
  have key : ∀ z, z = infBits ∨ FiniteBits 64 z → ∃ s, simpleAttr io .floatInf (.float z) = .ok s ∧
      readSimpleAttr io .floatInf s = .ok (.float z) := by
    rintro z (rfl | hz)
    · exact ⟨_, C22_inf io⟩
    · obtain ⟨s, h1, -, -, h2⟩ := C22_finite_partial io h z hz
      exact ⟨s, h1, h2⟩
  obtain ⟨s, h1, h2⟩ := key x hx
  obtain ⟨t, h3, h4⟩ := key y hy
  rw [h1, h3] at he
  injection he with he
  rw [he, h4] at h2
  injection h2 with h2
  injection h2 with h2
  exact h2.symm

/-- **C22**, the other values: NaN is read back as a NaN and `-Inf` as `-Inf`. -/
theorem C22_others (io : FloatIO) (h : GoFloats io) :
    (∀ x, IsNaN64 x → ∃ s y, simpleAttr io .floatInf (.float x) = .ok s ∧ readSimpleAttr io .floatInf s = .ok (.float y) ∧
      IsNaN64 y) ∧
    ∃ s, simpleAttr io .floatInf (.float (2 ^ 63 + infBits)) = .ok s ∧
      readSimpleAttr io .floatInf s = .ok (.float (2 ^ 63 + infBits)) := by
  constructor
  · intro x hx
    have hinf : x ≠ infBits := by rintro rfl; revert hx; unfold IsNaN64; decide +kernel
    obtain ⟨y, h1, h2⟩ := h.parse_nan
    refine ⟨b!"NaN", y, ?_, ?_, h2⟩
    · simp only [simpleAttr, floatInfText, if_neg hinf, h.formatF_nan x hx]
    · have hne : (b!"NaN") ≠ (b!"INF") := by decide
      simp only [readSimpleAttr, if_neg hne, h1]
  · have hinf : 2 ^ 63 + infBits ≠ infBits := by decide +kernel
    refine ⟨b!"-Inf", ?_, ?_⟩
    · simp only [simpleAttr, floatInfText, if_neg hinf, h.formatF_ninf]
    · have hne : (b!"-Inf") ≠ (b!"INF") := by decide
      simp only [readSimpleAttr, if_neg hne, h.parse_ninf]

/-- **C22** is false for `-Inf` and NaN: they are not written in plain decimal notation (and `-Inf` is not the XML Schema
spelling `-INF` either). -/
theorem C22_refuted (io : FloatIO) (h : GoFloats io) : ∃ x, x < 2 ^ 64 ∧ x ≠ infBits ∧
    ∃ s, simpleAttr io .floatInf (.float x) = .ok s ∧ ¬ Plain s ∧ s ≠ (b!"-INF") := by
  have hinf : 2 ^ 63 + infBits ≠ infBits := by decide +kernel
  refine ⟨2 ^ 63 + infBits, by decide +kernel, hinf, b!"-Inf", ?_, ?_, by decide⟩
  · simp only [simpleAttr, floatInfText, if_neg hinf, h.formatF_ninf]
  · rintro ⟨sg, ip, fp, h1, h2, h3, -, h5, -⟩
    cases ip with
    | nil => exact h5 rfl
    | cons a t =>
      have ha := h3 a (by simp)
      rcases h2 with rfl | rfl
      · simp only [List.nil_append, List.cons_append, List.cons.injEq] at h1
        rw [← h1.1] at ha; revert ha; decide
      · simp only [List.cons_append, List.nil_append, List.cons.injEq] at h1
        rw [← h1.2.1] at ha; revert ha; decide

-- The hypotheses hold of an implementation and of 0.1, 1e300, the least subnormal number and -0.
example (arch : Duration.Arch) : GoFloats (goFloat arch) ∧ FiniteBits 64 0x3FB999999999999A ∧
    FiniteBits 64 0x7E37E43C8800759C ∧ FiniteBits 64 1 ∧ FiniteBits 64 0x8000000000000000 ∧
    IsNaN64 0x7FF8000000000001 :=
  ⟨goFloat_ok arch, by decide +kernel, by decide +kernel, by decide +kernel, by decide +kernel, by unfold IsNaN64; decide +kernel⟩

end Verif.FloatText
