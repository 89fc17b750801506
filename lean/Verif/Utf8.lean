import Verif.Basic

/-!
UTF-8 as used by the `xml` package (`/repo/xml/xml.go` 1181-1194, 1286-1334, 1958-2047 and
`/repo/xml/read.go`, `marshal.go`): the functions `utf8.DecodeRune`, `utf8.DecodeRuneInString` and the
conversion `string(rune(n))` of the Go standard library.
-/
namespace Verif.Utf8

/-- `utf8.RuneError`, U+FFFD. -/
def runeError : Nat := 0xFFFD

/-- The result of `utf8.DecodeRune` on malformed input: `RuneError` with width 1. -/
def bad : Nat × Nat := (0xFFFD, 1)

/-- A continuation byte within the given bounds (`acceptRanges` in `unicode/utf8`). -/
def between (lo hi : Nat) (b : UInt8) : Bool := decide (lo ≤ b.toNat) && decide (b.toNat ≤ hi)

/-- A continuation byte, `0x80 ≤ b ≤ 0xBF`. -/
def cont (b : UInt8) : Bool := between 0x80 0xBF b

/-- Bounds of the second byte (`acceptRanges` in `unicode/utf8`), by first byte. -/
def lo2 (x : Nat) : Nat := if x = 0xE0 then 0xA0 else if x = 0xF0 then 0x90 else 0x80

/-- Upper bound of the second byte, by first byte. -/
def hi2 (x : Nat) : Nat := if x = 0xED then 0x9F else if x = 0xF4 then 0x8F else 0xBF

/-- `utf8.DecodeRune` / `utf8.DecodeRuneInString` (called in `/repo/xml/xml.go` 1184, 1290, 1299, 1314,
1323, 1971, 2016): rune and width of the first character.  Transcribed from the Go standard library: the tables
`first` and `acceptRanges` are written out as comparisons. -/
def decodeRune : Bytes → Nat × Nat
  | [] => (0xFFFD, 0)
  | b0 :: t =>
    let x := b0.toNat
    if x < 0x80 then (x, 1)
    else if x < 0xC2 then bad
    else if x < 0xE0 then
      match t with
      | b1 :: _ => if cont b1 then (x % 32 * 64 + b1.toNat % 64, 2) else bad
      | [] => bad
    else if x < 0xF0 then
      match t with
      | b1 :: b2 :: _ =>
        if between (lo2 x) (hi2 x) b1 && cont b2 then
          (x % 16 * 4096 + b1.toNat % 64 * 64 + b2.toNat % 64, 3)
        else bad
      | _ => bad
    else if x < 0xF5 then
      match t with
      | b1 :: b2 :: b3 :: _ =>
        if between (lo2 x) (hi2 x) b1 && cont b2 && cont b3
        then
          (x % 8 * 262144 + b1.toNat % 64 * 4096 + b2.toNat % 64 * 64 + b3.toNat % 64, 4)
        else bad
      | _ => bad
    else bad

/-- A Unicode scalar value: a code point up to U+10FFFF that is not a surrogate. -/
def IsScalar (n : Nat) : Prop := n < 0xD800 ∨ (0xE000 ≤ n ∧ n ≤ 0x10FFFF)

instance (n : Nat) : Decidable (IsScalar n) := by unfold IsScalar; infer_instance

/-- `string(rune(n))` (`/repo/xml/xml.go` 1117, 1139, `unicode/utf8.AppendRune`): surrogates and values above
U+10FFFF become U+FFFD. -/
def encodeRune (n : Nat) : Bytes :=
  if n < 0x80 then [UInt8.ofNat n]
  else if n < 0x800 then [UInt8.ofNat (0xC0 + n / 64), UInt8.ofNat (0x80 + n % 64)]
  else if (0xD800 ≤ n ∧ n < 0xE000) ∨ 0x10FFFF < n then [0xEF, 0xBF, 0xBD]
  else if n < 0x10000 then
    [UInt8.ofNat (0xE0 + n / 4096), UInt8.ofNat (0x80 + n / 64 % 64), UInt8.ofNat (0x80 + n % 64)]
  else
    [UInt8.ofNat (0xF0 + n / 262144), UInt8.ofNat (0x80 + n / 4096 % 64), UInt8.ofNat (0x80 + n / 64 % 64),
      UInt8.ofNat (0x80 + n % 64)]

/-- The loop `for len(s) > 0 { r, width := utf8.DecodeRune(s); s = s[width:] }` shared by the functions
modelled below: the runes of a string, each with the bytes it came from. Fuel: one unit per rune. -/
def runesF : Nat → Bytes → List (Nat × Bytes)
  | 0, _ => []
  | _ + 1, [] => []
  | n + 1, b :: t =>
    ((decodeRune (b :: t)).1, (b :: t).take (decodeRune (b :: t)).2) ::
      runesF n ((b :: t).drop (decodeRune (b :: t)).2)

/-- All runes of a string, in order; the fuel always suffices (`runes_cons`). -/
def runes (s : Bytes) : List (Nat × Bytes) := runesF s.length s

/-! ### Properties of decoding -/

theorem toNat_ofNat {n : Nat} (h : n < 256) : (UInt8.ofNat n).toNat = n := by
  simp [Nat.mod_eq_of_lt h]

theorem lo2_spec (x : Nat) : (x = 0xE0 → lo2 x = 0xA0) ∧ (x = 0xF0 → lo2 x = 0x90) ∧ 0x80 ≤ lo2 x ∧
    (x ≠ 0xE0 → x ≠ 0xF0 → lo2 x = 0x80) := by
  unfold lo2; split
  · omega
  · split <;> omega

theorem hi2_spec (x : Nat) : (x = 0xED → hi2 x = 0x9F) ∧ (x = 0xF4 → hi2 x = 0x8F) ∧ hi2 x ≤ 0xBF ∧
    (x ≠ 0xED → x ≠ 0xF4 → hi2 x = 0xBF) := by
  unfold hi2; split
  · omega
  · split <;> omega

theorem decode_width_pos (b : UInt8) (t : Bytes) : 1 ≤ (decodeRune (b :: t)).2 := by
  unfold decodeRune bad
  dsimp only
  split
  · simp
  split
  · simp
  split
  · split
    · split <;> simp
    · simp
  split
  · split
    · split <;> simp
    · simp
  split
  · split
    · split <;> simp
    · simp
  · simp

theorem decode_width_le (s : Bytes) : (decodeRune s).2 ≤ s.length := by
  unfold decodeRune bad
  split
  · simp
  dsimp only
  split
  · simp
  split
  · simp
  split
  · split
    · split <;> simp
    · simp
  split
  · split
    · split <;> simp
    · simp
  split
  · split
    · split <;> simp
    · simp
  · simp

/-- Decoding looks at no more bytes than it consumes: a well-formed character decodes the same whatever follows. -/
theorem decode_stable (s : Bytes) (hs : s ≠ []) (h : decodeRune s ≠ bad) (rest : Bytes) :
    decodeRune (s.take (decodeRune s).2 ++ rest) = decodeRune s := by
  match s with
  | [] => exact absurd rfl hs
  | b0 :: t =>
    by_cases h1 : b0.toNat < 0x80
    · simp [decodeRune, h1]
    by_cases h2 : b0.toNat < 0xC2
    · exact absurd (by simp [decodeRune, h1, h2]) h
    by_cases h3 : b0.toNat < 0xE0
    · match t with
      | [] => exact absurd (by simp [decodeRune, h1, h2, h3]) h
      | b1 :: t =>
        by_cases hc : cont b1 = true
        · simp [decodeRune, h1, h2, h3, hc]
        · exact absurd (by simp [decodeRune, h1, h2, h3, hc]) h
    by_cases h4 : b0.toNat < 0xF0
    · match t with
      | [] => exact absurd (by simp [decodeRune, h1, h2, h3, h4]) h
      | [b1] => exact absurd (by simp [decodeRune, h1, h2, h3, h4]) h
      | b1 :: b2 :: t =>
        simp only [decodeRune, h1, h2, h3, h4, if_true, if_false] at h ⊢
        split at h
        · rename_i hc
          simp [h1, h2, h3, h4, hc]
        · exact absurd rfl h
    by_cases h5 : b0.toNat < 0xF5
    · match t with
      | [] => exact absurd (by simp [decodeRune, h1, h2, h3, h4, h5]) h
      | [b1] => exact absurd (by simp [decodeRune, h1, h2, h3, h4, h5]) h
      | [b1, b2] => exact absurd (by simp [decodeRune, h1, h2, h3, h4, h5]) h
      | b1 :: b2 :: b3 :: t =>
        simp only [decodeRune, h1, h2, h3, h4, h5, if_true, if_false] at h ⊢
        split at h
        · rename_i hc
          simp [h1, h2, h3, h4, h5, hc]
        · exact absurd rfl h
    · exact absurd (by simp [decodeRune, h1, h2, h3, h4, h5]) h

theorem decode_ascii (b : UInt8) (t : Bytes) (h : b.toNat < 0x80) : decodeRune (b :: t) = (b.toNat, 1) := by
  simp [decodeRune, h]

/-- A rune below 0x80 comes from exactly that one byte. -/
theorem decode_lt_128 (s : Bytes) (h : (decodeRune s).1 < 0x80) :
    ∃ b t, s = b :: t ∧ b.toNat = (decodeRune s).1 ∧ (decodeRune s).2 = 1 := by
  match s with
  | [] => simp [decodeRune] at h
  | b0 :: t =>
    refine ⟨b0, t, rfl, ?_⟩
    by_cases h1 : b0.toNat < 0x80
    · simp [decodeRune, h1]
    exfalso
    by_cases h2 : b0.toNat < 0xC2
    · simp [decodeRune, h1, h2, bad] at h
    by_cases h3 : b0.toNat < 0xE0
    · match t with
      | [] => simp [decodeRune, h1, h2, h3, bad] at h
      | b1 :: t =>
        by_cases hc : cont b1 = true
        · simp [decodeRune, h1, h2, h3, hc] at h
          omega
        · simp [decodeRune, h1, h2, h3, hc, bad] at h
    by_cases h4 : b0.toNat < 0xF0
    · match t with
      | [] => simp [decodeRune, h1, h2, h3, h4, bad] at h
      | [b1] => simp [decodeRune, h1, h2, h3, h4, bad] at h
      | b1 :: b2 :: t =>
        simp only [decodeRune, h1, h2, h3, h4, if_true, if_false] at h
        split at h
        · rename_i hc
          simp only [Bool.and_eq_true, between, decide_eq_true_eq] at hc
          have := hc.1
          dsimp only at h
          have l1 := lo2_spec b0.toNat
          have l2 := hi2_spec b0.toNat
          omega
        · simp [bad] at h
    by_cases h5 : b0.toNat < 0xF5
    · match t with
      | [] => simp [decodeRune, h1, h2, h3, h4, h5, bad] at h
      | [b1] => simp [decodeRune, h1, h2, h3, h4, h5, bad] at h
      | [b1, b2] => simp [decodeRune, h1, h2, h3, h4, h5, bad] at h
      | b1 :: b2 :: b3 :: t =>
        simp only [decodeRune, h1, h2, h3, h4, h5, if_true, if_false] at h
        split at h
        · rename_i hc
          simp only [Bool.and_eq_true, between, decide_eq_true_eq] at hc
          have := hc.1.1
          dsimp only at h
          have l1 := lo2_spec b0.toNat
          have l2 := hi2_spec b0.toNat
          omega
        · simp [bad] at h
    · simp [decodeRune, h1, h2, h3, h4, h5, bad] at h

/-- Every decoded rune is a Unicode scalar value. -/
theorem decode_scalar (s : Bytes) : IsScalar (decodeRune s).1 := by
  unfold IsScalar
  match s with
  | [] => simp [decodeRune]
  | b0 :: t =>
    by_cases h1 : b0.toNat < 0x80
    · simp [decodeRune, h1]; omega
    by_cases h2 : b0.toNat < 0xC2
    · simp [decodeRune, h1, h2, bad]
    by_cases h3 : b0.toNat < 0xE0
    · match t with
      | [] => simp [decodeRune, h1, h2, h3, bad]
      | b1 :: t =>
        by_cases hc : cont b1 = true
        · simp [decodeRune, h1, h2, h3, hc]
          omega
        · simp [decodeRune, h1, h2, h3, hc, bad]
    by_cases h4 : b0.toNat < 0xF0
    · match t with
      | [] => simp [decodeRune, h1, h2, h3, h4, bad]
      | [b1] => simp [decodeRune, h1, h2, h3, h4, bad]
      | b1 :: b2 :: t =>
        simp only [decodeRune, h1, h2, h3, h4, if_true, if_false]
        split
        · rename_i hc
          simp only [Bool.and_eq_true, between, decide_eq_true_eq] at hc
          have := hc.1
          dsimp only
          have l1 := lo2_spec b0.toNat
          have l2 := hi2_spec b0.toNat
          omega
        · simp [bad]
    by_cases h5 : b0.toNat < 0xF5
    · match t with
      | [] => simp [decodeRune, h1, h2, h3, h4, h5, bad]
      | [b1] => simp [decodeRune, h1, h2, h3, h4, h5, bad]
      | [b1, b2] => simp [decodeRune, h1, h2, h3, h4, h5, bad]
      | b1 :: b2 :: b3 :: t =>
        simp only [decodeRune, h1, h2, h3, h4, h5, if_true, if_false]
        split
        · rename_i hc
          simp only [Bool.and_eq_true, between, decide_eq_true_eq] at hc
          have := hc.1.1
          dsimp only
          have l1 := lo2_spec b0.toNat
          have l2 := hi2_spec b0.toNat
          omega
        · simp [bad]
    · simp [decodeRune, h1, h2, h3, h4, h5, bad]

/-- All bytes of a multi-byte character are at least 0x80. -/
theorem decode_high (s : Bytes) (hs : s ≠ []) (h : decodeRune s ≠ bad) (hr : 0x80 ≤ (decodeRune s).1) :
    ∀ b ∈ s.take (decodeRune s).2, 0x80 ≤ b.toNat := by
  match s with
  | [] => exact absurd rfl hs
  | b0 :: t =>
    by_cases h1 : b0.toNat < 0x80
    · simp [decodeRune, h1] at hr; omega
    by_cases h2 : b0.toNat < 0xC2
    · exact absurd (by simp [decodeRune, h1, h2]) h
    by_cases h3 : b0.toNat < 0xE0
    · match t with
      | [] => exact absurd (by simp [decodeRune, h1, h2, h3]) h
      | b1 :: t =>
        by_cases hc : cont b1 = true
        · simp only [decodeRune, h1, h2, h3, hc, if_true, if_false]
          simp [cont, between] at hc
          intro b hb; simp at hb
          rcases hb with rfl | rfl <;> omega
        · exact absurd (by simp [decodeRune, h1, h2, h3, hc]) h
    by_cases h4 : b0.toNat < 0xF0
    · match t with
      | [] => exact absurd (by simp [decodeRune, h1, h2, h3, h4]) h
      | [b1] => exact absurd (by simp [decodeRune, h1, h2, h3, h4]) h
      | b1 :: b2 :: t =>
        simp only [decodeRune, h1, h2, h3, h4, if_true, if_false] at h ⊢
        by_cases hc : (between (lo2 b0.toNat) (hi2 b0.toNat) b1 && cont b2) = true
        · rw [if_pos hc]
          simp only [Bool.and_eq_true, between, cont, decide_eq_true_eq] at hc
          have := hc.1.1
          intro b hb; simp at hb
          rcases hb with rfl | rfl | rfl
          · omega
          · have l1 := lo2_spec b0.toNat
            omega
          · omega
        · exact absurd (if_neg hc) h
    by_cases h5 : b0.toNat < 0xF5
    · match t with
      | [] => exact absurd (by simp [decodeRune, h1, h2, h3, h4, h5]) h
      | [b1] => exact absurd (by simp [decodeRune, h1, h2, h3, h4, h5]) h
      | [b1, b2] => exact absurd (by simp [decodeRune, h1, h2, h3, h4, h5]) h
      | b1 :: b2 :: b3 :: t =>
        simp only [decodeRune, h1, h2, h3, h4, h5, if_true, if_false] at h ⊢
        by_cases hc : (between (lo2 b0.toNat) (hi2 b0.toNat) b1 && cont b2 && cont b3) = true
        · rw [if_pos hc]
          simp only [Bool.and_eq_true, between, cont, decide_eq_true_eq] at hc
          have := hc.1.1.1
          intro b hb; simp at hb
          rcases hb with rfl | rfl | rfl | rfl
          · omega
          · have l1 := lo2_spec b0.toNat
            omega
          · omega
          · omega
        · exact absurd (if_neg hc) h
    · exact absurd (by simp [decodeRune, h1, h2, h3, h4, h5]) h

/-- Decoding an encoded scalar value gives it back, whatever follows. -/
theorem decode_encode (n : Nat) (h : IsScalar n) (rest : Bytes) :
    decodeRune (encodeRune n ++ rest) = (n, (encodeRune n).length) := by
  unfold IsScalar at h
  by_cases h1 : n < 0x80
  · simp [encodeRune, h1, decodeRune, show n % 256 = n by omega]
  by_cases h2 : n < 0x800
  · have e1 := toNat_ofNat (n := 0xC0 + n / 64) (by omega)
    have e2 := toNat_ofNat (n := 0x80 + n % 64) (by omega)
    simp only [encodeRune, h1, h2, if_true, if_false, List.cons_append, List.nil_append, decodeRune, e1, cont,
      between, e2]
    rw [if_neg (by omega), if_neg (by omega), if_pos (by omega), if_pos (by simp; omega)]
    simp only [List.length_cons, List.length_nil, Prod.mk.injEq, and_true]
    omega
  have h3 : ¬ ((0xD800 ≤ n ∧ n < 0xE000) ∨ 0x10FFFF < n) := by omega
  by_cases h4 : n < 0x10000
  · have e1 := toNat_ofNat (n := 0xE0 + n / 4096) (by omega)
    have e2 := toNat_ofNat (n := 0x80 + n / 64 % 64) (by omega)
    have e3 := toNat_ofNat (n := 0x80 + n % 64) (by omega)
    simp only [encodeRune, h1, h2, h3, h4, if_true, if_false, List.cons_append, List.nil_append, decodeRune, e1,
      cont, between, e2, e3]
    rw [if_neg (by omega), if_neg (by omega), if_neg (by omega), if_pos (by omega), if_pos]
    · simp only [List.length_cons, List.length_nil, Prod.mk.injEq, and_true]
      omega
    · simp only [Bool.and_eq_true, decide_eq_true_eq]
      have l1 := lo2_spec (0xE0 + n / 4096)
      have l2 := hi2_spec (0xE0 + n / 4096)
      refine ⟨⟨?_, ?_⟩, ?_, ?_⟩ <;> omega
  · have e1 := toNat_ofNat (n := 0xF0 + n / 262144) (by omega)
    have e2 := toNat_ofNat (n := 0x80 + n / 4096 % 64) (by omega)
    have e3 := toNat_ofNat (n := 0x80 + n / 64 % 64) (by omega)
    have e4 := toNat_ofNat (n := 0x80 + n % 64) (by omega)
    simp only [encodeRune, h1, h2, h3, h4, if_true, if_false, List.cons_append, List.nil_append, decodeRune, e1,
      cont, between, e2, e3, e4]
    rw [if_neg (by omega), if_neg (by omega), if_neg (by omega), if_neg (by omega), if_pos (by omega), if_pos]
    · simp only [List.length_cons, List.length_nil, Prod.mk.injEq, and_true]
      omega
    · simp only [Bool.and_eq_true, decide_eq_true_eq]
      have l1 := lo2_spec (0xF0 + n / 262144)
      have l2 := hi2_spec (0xF0 + n / 262144)
      refine ⟨⟨⟨?_, ?_⟩, ?_, ?_⟩, ?_, ?_⟩ <;> omega

theorem encodeRune_ne (n : Nat) : encodeRune n ≠ [] := by
  unfold encodeRune
  repeat' split
  all_goals simp

/-! ### The rune list -/

theorem runesF_fuel (n m : Nat) (s : Bytes) (h1 : s.length ≤ n) (h2 : s.length ≤ m) : runesF n s = runesF m s := by
  induction n generalizing m s with
  | zero =>
    have : s = [] := List.length_eq_zero_iff.mp (by omega)
    subst this; cases m <;> rfl
  | succ n ih =>
    match s with
    | [] => cases m <;> rfl
    | b :: t =>
      cases m with
      | zero => simp at h2
      | succ m =>
        simp only [runesF]
        have hw := decode_width_pos b t
        simp at h1 h2
        rw [ih m _ (by rw [List.length_drop]; simp; omega) (by rw [List.length_drop]; simp; omega)]

@[simp] theorem runes_nil : runes [] = [] := rfl

theorem runes_cons (b : UInt8) (t : Bytes) :
    runes (b :: t) = ((decodeRune (b :: t)).1, (b :: t).take (decodeRune (b :: t)).2) ::
      runes ((b :: t).drop (decodeRune (b :: t)).2) := by
  have hw := decode_width_pos b t
  show runesF (t.length + 1) (b :: t) = _
  simp only [runesF]
  congr 1
  exact runesF_fuel _ _ _ (by rw [List.length_drop]; simp; omega) (by simp)

/-- A piece that is a complete character: it decodes to `r` whatever follows it. -/
def IsChunk (r : Nat) (c : Bytes) : Prop := c ≠ [] ∧ ∀ rest, decodeRune (c ++ rest) = (r, c.length)

theorem isChunk_encode (n : Nat) (h : IsScalar n) : IsChunk n (encodeRune n) :=
  ⟨encodeRune_ne n, decode_encode n h⟩

theorem isChunk_ascii (b : UInt8) (h : b.toNat < 0x80) : IsChunk b.toNat [b] :=
  ⟨by simp, fun rest => decode_ascii b rest h⟩

theorem isChunk_fffd : IsChunk 0xFFFD [0xEF, 0xBF, 0xBD] :=
  ⟨by simp, fun rest => decode_encode 0xFFFD (by decide) rest⟩

theorem runes_chunk {r : Nat} {c : Bytes} (h : IsChunk r c) (rest : Bytes) :
    runes (c ++ rest) = (r, c) :: runes rest := by
  obtain ⟨hne, hd⟩ := h
  obtain ⟨b, t, rfl⟩ := List.exists_cons_of_ne_nil hne
  have := hd rest
  rw [List.cons_append] at this
  rw [List.cons_append, runes_cons, this]
  simp only [List.cons.injEq, Prod.mk.injEq, true_and]
  rw [← List.cons_append]
  exact ⟨List.take_left, by rw [List.drop_left]⟩

theorem runes_flatMap {α : Type} (f : α → Nat × Bytes) (l : List α) (h : ∀ x ∈ l, IsChunk (f x).1 (f x).2) :
    runes (l.flatMap (fun x => (f x).2)) = l.map f := by
  induction l with
  | nil => rfl
  | cons x l ih =>
    rw [List.flatMap_cons, runes_chunk (h x (by simp)), ih (fun y hy => h y (by simp [hy]))]
    simp

/-- The pieces of a string concatenate to the string. -/
theorem runes_flatten (s : Bytes) : (runes s).flatMap (·.2) = s := by
  suffices ∀ n (s : Bytes), s.length ≤ n → (runes s).flatMap (·.2) = s from this _ s (Nat.le_refl _)
  intro n
  induction n with
  | zero => intro s h; have : s = [] := List.length_eq_zero_iff.mp (by omega); subst this; rfl
  | succ n ih =>
    intro s h
    match s with
    | [] => rfl
    | b :: t =>
      have hw := decode_width_pos b t
      rw [runes_cons, List.flatMap_cons, ih _ (by rw [List.length_drop]; simp at h ⊢; omega)]
      exact List.take_append_drop _ _

/-- Each piece is either one malformed byte, reported as U+FFFD, or a complete character. -/
theorem runes_mem (s : Bytes) (p : Nat × Bytes) (hp : p ∈ runes s) :
    (p.1 = 0xFFFD ∧ ∃ b, p.2 = [b] ∧ 0x80 ≤ b.toNat) ∨ (IsChunk p.1 p.2 ∧ ¬ (p.1 = 0xFFFD ∧ p.2.length = 1)) := by
  suffices ∀ n (s : Bytes), s.length ≤ n → p ∈ runes s →
      (p.1 = 0xFFFD ∧ ∃ b, p.2 = [b] ∧ 0x80 ≤ b.toNat) ∨
      (IsChunk p.1 p.2 ∧ ¬ (p.1 = 0xFFFD ∧ p.2.length = 1)) from
    this _ s (Nat.le_refl _) hp
  intro n
  induction n with
  | zero => intro s h hp; have : s = [] := List.length_eq_zero_iff.mp (by omega); subst this; simp at hp
  | succ n ih =>
    intro s h hp
    match s with
    | [] => simp at hp
    | b :: t =>
      have hw := decode_width_pos b t
      have hle := decode_width_le (b :: t)
      rw [runes_cons, List.mem_cons] at hp
      rcases hp with rfl | hp
      · by_cases hb : decodeRune (b :: t) = bad
        · left
          rw [hb]
          refine ⟨rfl, b, rfl, ?_⟩
          by_cases h1 : b.toNat < 0x80
          · rw [decode_ascii b t h1] at hb
            simp [bad] at hb
            omega
          · omega
        · right
          have hlen : ((b :: t).take (decodeRune (b :: t)).2).length = (decodeRune (b :: t)).2 := by
            rw [List.length_take]; omega
          refine ⟨⟨?_, ?_⟩, ?_⟩
          · intro h0; dsimp only at h0; rw [h0] at hlen; simp at hlen; omega
          · intro rest
            rw [decode_stable _ (by simp) hb rest]
            dsimp only
            rw [hlen]
          · rintro ⟨e1, e2⟩
            dsimp only at e1 e2
            rw [hlen] at e2
            exact hb (Prod.ext e1 e2)
      · exact ih _ (by rw [List.length_drop]; simp at h ⊢; omega) hp

/-- In a string of encoded scalar values the runes are those values. -/
theorem runes_encode (cs : List Nat) (h : ∀ c ∈ cs, IsScalar c) :
    runes (cs.flatMap encodeRune) = cs.map (fun c => (c, encodeRune c)) :=
  runes_flatMap (fun c => (c, encodeRune c)) cs (fun c hc => isChunk_encode c (h c hc))

end Verif.Utf8
