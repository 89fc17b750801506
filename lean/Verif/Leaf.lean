import Verif.Typed
import Verif.XmlTextProps
import Verif.XmlLex
import Verif.DurationCycle
import Verif.FloatBits
import Verif.KRfl

/-!
Simple values written and read back, and C41: integers are read as what their decimal text denotes, within the range of the
field, and never truncated.
-/
namespace Verif.Bind

open Verif.Xml Verif.Utf8

/-! ### `strings.TrimSpace` -/

theorem dropWhile_flat (p : Nat × Bytes → Bool) (l : List (Nat × Bytes)) :
    ∃ w, (∀ q ∈ w, p q = true) ∧ l = w ++ l.dropWhile p :=
  ⟨l.takeWhile p, fun _ hq => List.all_eq_true.1 List.all_takeWhile _ hq, (List.takeWhile_append_dropWhile).symm⟩

/-- `TrimSpace` removes white space at both ends and leaves nothing more to remove. -/
theorem trimSpace_spec (s : Bytes) : ∃ l m r : List (Nat × Bytes), runes s = l ++ m ++ r ∧
    (∀ q ∈ l, isUniSpace q.1 = true) ∧ (∀ q ∈ r, isUniSpace q.1 = true) ∧ trimSpace s = m.flatMap (·.2) ∧
    (∀ q, m.head? = some q → isUniSpace q.1 = false) ∧ (∀ q, m.getLast? = some q → isUniSpace q.1 = false) := by
  have hdw : ∀ (p : Nat × Bytes → Bool) (l : List (Nat × Bytes)) q, (l.dropWhile p).head? = some q → p q = false := by
    intro p l q h
    induction l with
    | nil => simp at h
    | cons a l ih =>
      rw [List.dropWhile_cons] at h
      split at h
      · exact ih h
      · rename_i hp
        simp only [List.head?_cons, Option.some.injEq] at h
        subst h; simpa using hp
  set p : Nat × Bytes → Bool := fun q => isUniSpace q.1 with hp
  obtain ⟨l, hl, e1⟩ := dropWhile_flat p (runes s)
  obtain ⟨r, hr, e2⟩ := dropWhile_flat p ((runes s).dropWhile p).reverse
  set m := (((runes s).dropWhile p).reverse.dropWhile p).reverse with hm
  have e3 : (runes s).dropWhile p = m ++ r.reverse := by
    have := congrArg List.reverse e2
    rw [List.reverse_reverse, List.reverse_append] at this
    exact this
  refine ⟨l, m, r.reverse, ?_, hl, ?_, rfl, ?_, ?_⟩
  · rw [List.append_assoc, ← e3]; exact e1
  · intro q hq; exact hr q (List.mem_reverse.1 hq)
  · intro q hq
    refine hdw p (runes s) q ?_
    rw [e3, List.head?_append, hq]; rfl
  · intro q hq
    refine hdw p ((runes s).dropWhile p).reverse q ?_
    rw [hm, List.getLast?_reverse] at hq
    exact hq

/-- Nothing is removed from a text without white space. -/
theorem trimSpace_none (s : Bytes) (h : ∀ q ∈ runes s, isUniSpace q.1 = false) : trimSpace s = s := by
  obtain ⟨l, m, r, e, hl, hr, ht, _, _⟩ := trimSpace_spec s
  have l0 : l = [] := by
    cases l with
    | nil => rfl
    | cons q l =>
      have h1 := hl q (by simp)
      rw [h q (by rw [e]; simp)] at h1; cases h1
  have r0 : r = [] := by
    cases r with
    | nil => rfl
    | cons q r =>
      have h1 := hr q (by simp)
      rw [h q (by rw [e]; simp)] at h1; cases h1
  subst l0; subst r0
  rw [ht]
  simp only [List.nil_append, List.append_nil] at e
  rw [← e, runes_flatten]

/-- A printable ASCII character other than the space. -/
def Graphic (b : UInt8) : Prop := 0x21 ≤ b.toNat ∧ b.toNat < 0x7F

instance (b : UInt8) : Decidable (Graphic b) := by unfold Graphic; infer_instance

theorem graphic_trim (s : Bytes) (h : ∀ b ∈ s, Graphic b) : trimSpace s = s := by
  refine trimSpace_none s fun q hq => ?_
  rw [runes_ascii s fun b hb => by have := h b hb; unfold Graphic at this; omega] at hq
  obtain ⟨b, hb, rfl⟩ := List.mem_map.1 hq
  have h := h b hb
  unfold Graphic at h
  simp only [isUniSpace, Bool.or_eq_false_iff, Bool.and_eq_false_iff, decide_eq_false_iff_not, beq_eq_false_iff_ne]
  omega

theorem graphic_clean (s : Bytes) (h : ∀ b ∈ s, Graphic b) : clean s = s := by
  refine clean_of_xmlText s fun q hq => ?_
  rw [runes_ascii s fun b hb => by have := h b hb; unfold Graphic at this; omega] at hq
  obtain ⟨b, hb, rfl⟩ := List.mem_map.1 hq
  have h := h b hb
  unfold Graphic at h
  refine ⟨?_, fun hc => ?_⟩
  · unfold IsXmlChar; dsimp only; omega
  · have := hc.1; dsimp only at this; omega

theorem digit_graphic (b : UInt8) (h : isDigit b = true) : Graphic b := by
  unfold isDigit at h
  simp only [Bool.and_eq_true, decide_eq_true_eq] at h
  unfold Graphic
  omega

/-! ### C41: integers -/

/-- The characters with the Unicode property White_Space. -/
def whiteSpace : List Nat :=
  [0x09, 0x0A, 0x0B, 0x0C, 0x0D, 0x20, 0x85, 0xA0, 0x1680, 0x2000, 0x2001, 0x2002, 0x2003, 0x2004, 0x2005, 0x2006, 0x2007, 0x2008, 0x2009, 0x200A,
    0x2028, 0x2029, 0x202F, 0x205F, 0x3000]

theorem isUniSpace_iff (r : Nat) : isUniSpace r = true ↔ r ∈ whiteSpace := by
  simp only [isUniSpace, whiteSpace, Bool.or_eq_true, Bool.and_eq_true, decide_eq_true_eq, beq_iff_eq, List.mem_cons, List.not_mem_nil, or_false]
  omega

theorem isUniSpace_not (r : Nat) : isUniSpace r = false ↔ r ∉ whiteSpace := by
  rw [← isUniSpace_iff]; simp

/-- `t` is `s` without the white space at its ends. -/
def Trimmed (s t : Bytes) : Prop := ∃ l m r : List (Nat × Bytes), runes s = l ++ m ++ r ∧ t = m.flatMap (·.2) ∧
  (∀ q ∈ l, q.1 ∈ whiteSpace) ∧ (∀ q ∈ r, q.1 ∈ whiteSpace) ∧
  (∀ q, m.head? = some q → q.1 ∉ whiteSpace) ∧ (∀ q, m.getLast? = some q → q.1 ∉ whiteSpace)

theorem dropWhile_skip {α : Type} (p : α → Bool) (l m : List α) (hl : ∀ q ∈ l, p q = true) :
    (l ++ m).dropWhile p = m.dropWhile p := by
  induction l with
  | nil => rfl
  | cons a l ih =>
    rw [List.cons_append, List.dropWhile_cons, if_pos (hl a (by simp))]
    exact ih fun q hq => hl q (by simp [hq])

theorem dropWhile_stop {α : Type} (p : α → Bool) (m : List α) (h : ∀ q, m.head? = some q → p q = false) :
    m.dropWhile p = m := by
  cases m with
  | nil => rfl
  | cons a m => rw [List.dropWhile_cons, if_neg (by rw [h a rfl]; simp)]

theorem trimmed_iff (s t : Bytes) : Trimmed s t ↔ t = trimSpace s := by
  unfold Trimmed
  simp only [← isUniSpace_iff, Bool.not_eq_true]
  constructor
  · rintro ⟨l, m, r, e, ht, hl, hr, h1, h2⟩
    rw [ht]
    unfold trimSpace
    rw [e, List.append_assoc, dropWhile_skip _ _ _ hl]
    have hr' : ∀ q ∈ r.reverse, isUniSpace q.1 = true := fun q hq => hr q (List.mem_reverse.1 hq)
    cases m with
    | nil =>
      rw [List.nil_append, show r = r ++ [] by simp, dropWhile_skip _ _ _ hr]
      rfl
    | cons a m =>
      rw [dropWhile_stop _ (a :: m ++ r) (by
        intro q hq
        rw [List.cons_append, List.head?_cons] at hq
        injection hq with hq
        subst hq; exact h1 _ rfl)]
      rw [List.reverse_append, dropWhile_skip _ _ _ hr', dropWhile_stop, List.reverse_reverse]
      intro q hq
      rw [List.head?_reverse] at hq
      exact h2 q hq
  · rintro rfl
    obtain ⟨l, m, r, e, hl, hr, ht, h1, h2⟩ := trimSpace_spec s
    exact ⟨l, m, r, e, ht, hl, hr, h1, h2⟩

theorem trimSpace_nil : trimSpace [] = [] := rfl

/-- **C41**, reading a signed integer: the result is the integer denoted by the decimal text, if it fits; everything else
is an error.  An empty text is read as 0. -/
theorem C41_read_int (io : FloatIO) (bits : Nat) (hb : 1 ≤ bits) (s : Bytes) (w : Val) :
    readSimpleAttr io (.int bits) s = .ok w ↔ (s = [] ∧ w = .int 0) ∨
      ∃ t i, Trimmed s t ∧ Strconv.DecInt t i ∧ -(2 ^ (bits - 1) : Int) ≤ i ∧ i < 2 ^ (bits - 1) ∧ w = .int i := by
  unfold readSimpleAttr copySimple
  dsimp only
  by_cases h : s = []
  · subst h
    rw [if_pos rfl]
    constructor
    · intro h; injection h with h; exact Or.inl ⟨rfl, h.symm⟩
    · rintro (⟨_, rfl⟩ | ⟨t, i, ht, hd, _⟩)
      · rfl
      · rw [trimmed_iff, trimSpace_nil] at ht
        subst ht
        exact absurd rfl (by cases hd; assumption)
  · rw [if_neg h]
    cases hp : Strconv.parseInt (trimSpace s) bits with
    | none =>
      constructor
      · intro h; cases h
      · rintro (⟨h', _⟩ | ⟨t, i, ht, hd, h1, h2, rfl⟩)
        · exact absurd h' h
        · rw [trimmed_iff] at ht
          subst ht
          rw [(Strconv.parseInt_iff _ _ hb i).2 ⟨hd, h1, h2⟩] at hp
          cases hp
    | some j =>
      have hj := (Strconv.parseInt_iff _ _ hb j).1 hp
      constructor
      · intro h; injection h with h
        exact Or.inr ⟨_, j, (trimmed_iff _ _).2 rfl, hj.1, hj.2.1, hj.2.2, h.symm⟩
      · rintro (⟨h', _⟩ | ⟨t, i, ht, hd, h1, h2, rfl⟩)
        · exact absurd h' h
        · rw [trimmed_iff] at ht
          subst ht
          rw [(Strconv.parseInt_iff _ _ hb i).2 ⟨hd, h1, h2⟩] at hp
          injection hp with hp
          rw [hp]

/-- **C41**, reading an unsigned integer. -/
theorem C41_read_uint (io : FloatIO) (bits : Nat) (s : Bytes) (w : Val) :
    readSimpleAttr io (.uint bits) s = .ok w ↔ (s = [] ∧ w = .uint 0) ∨
      ∃ t, Trimmed s t ∧ t ≠ [] ∧ (∀ b ∈ t, isDigit b = true) ∧ decVal t < 2 ^ bits ∧ w = .uint (decVal t) := by
  unfold readSimpleAttr copySimple
  dsimp only
  by_cases h : s = []
  · subst h
    rw [if_pos rfl]
    constructor
    · intro h; injection h with h; exact Or.inl ⟨rfl, h.symm⟩
    · rintro (⟨_, rfl⟩ | ⟨t, ht, hd, _⟩)
      · rfl
      · rw [trimmed_iff, trimSpace_nil] at ht
        exact absurd ht hd
  · rw [if_neg h]
    cases hp : Strconv.parseUint (trimSpace s) bits with
    | none =>
      constructor
      · intro h; cases h
      · rintro (⟨h', _⟩ | ⟨t, ht, h1, h2, h3, rfl⟩)
        · exact absurd h' h
        · rw [trimmed_iff] at ht
          subst ht
          rw [(Strconv.parseUint_iff _ _ _).2 ⟨h1, h2, rfl, h3⟩] at hp
          cases hp
    | some j =>
      have hj := (Strconv.parseUint_iff _ _ j).1 hp
      constructor
      · intro h; injection h with h
        refine Or.inr ⟨_, (trimmed_iff _ _).2 rfl, hj.1, hj.2.1, ?_, ?_⟩
        · rw [hj.2.2.1]; exact hj.2.2.2
        · rw [hj.2.2.1]; exact h.symm
      · rintro (⟨h', _⟩ | ⟨t, ht, h1, h2, h3, rfl⟩)
        · exact absurd h' h
        · rw [trimmed_iff] at ht
          subst ht
          rw [hj.2.2.1]

theorem formatInt_denotes (i : Int) : Strconv.DecInt (Strconv.formatInt i) i := by
  unfold Strconv.formatInt
  have hs := Strconv.formatUint_spec i.natAbs
  split
  · have := Strconv.DecInt.minus (Strconv.formatUint i.natAbs) hs.2.2 hs.2.1
    rw [hs.1] at this
    rwa [show (-(i.natAbs : Int)) = i by omega] at this
  · have := Strconv.DecInt.plain (Strconv.formatUint i.natAbs) hs.2.2 hs.2.1
    rw [hs.1] at this
    rwa [show ((i.natAbs : Int)) = i by omega] at this

/-- **C41**, writing: the text of an integer denotes it, as an attribute and as the content of an element. -/
theorem C41_written (io : FloatIO) :
    (∀ bits i, ∃ t, simpleAttr io (.int bits) (.int i) = .ok t ∧ marshalSimple io (.int bits) (.int i) = .ok t ∧
      Strconv.DecInt t i) ∧
    (∀ bits n, ∃ t, simpleAttr io (.uint bits) (.uint n) = .ok t ∧ marshalSimple io (.uint bits) (.uint n) = .ok t ∧
      t ≠ [] ∧ (∀ b ∈ t, isDigit b = true) ∧ decVal t = n) := by
  refine ⟨fun bits i => ⟨_, rfl, rfl, formatInt_denotes i⟩, fun bits n => ⟨_, rfl, rfl, ?_⟩⟩
  have hs := Strconv.formatUint_spec n
  exact ⟨hs.2.2, hs.2.1, hs.1⟩

/-- **C41**: the content of an element is read like an attribute. -/
theorem C41_content (io : FloatIO) (bits : Nat) (s : Bytes) :
    copySimple io (.int bits) s = readSimpleAttr io (.int bits) s ∧
    copySimple io (.uint bits) s = readSimpleAttr io (.uint bits) s := ⟨rfl, rfl⟩

/-- The pointers around a simple kind do not matter for an attribute. -/
theorem C41_ptr (io : FloatIO) (k : Kind) (v : Val) (a : Attr) (w : Val) :
    readAttr io (.ptr (.simple k)) v a = .ok w ↔ ∃ w', w = .ptr (some w') ∧ readSimpleAttr io k a.value = .ok w' := by
  have key : readAttr io (.ptr (.simple k)) v a = (match readSimpleAttr io k a.value with
      | .ok w => .ok (.ptr (some w))
      | .error e => .error e) := by
    cases v with
    | ptr o => cases o <;> rfl
    | _ => rfl
  rw [key]
  cases h : readSimpleAttr io k a.value with
  | error e => simp
  | ok x => simp [eq_comm]

-- 255, 256 and a text with a fraction in an 8-bit field; a signed text.
example (io : FloatIO) : readSimpleAttr io (.uint 8) (b!" 255\n") = .ok (.uint 255) ∧
    readSimpleAttr io (.uint 8) (b!"256") = .error .number ∧ readSimpleAttr io (.uint 8) (b!"1.5") = .error .number ∧
    readSimpleAttr io (.int 32) (b!"-2147483648") = .ok (.int (-2147483648)) ∧
    readSimpleAttr io (.int 32) (b!"2147483648") = .error .number :=
  ⟨by krfl, by krfl, by krfl, by krfl, by krfl⟩

/-! ### Simple values written and read back -/

/-- The bit patterns of zero and of negative zero. -/
def ZeroBits (b x : Nat) : Prop := x = 0 ∨ x = 2 ^ (b - 1)

/-- `j` is what is left of the duration `i` after writing and reading it (C06): it is the duration that the
text denotes (`writtenNanos`: `i` rounded to milliseconds) or one nanosecond less, and exactly that if it is a whole number of
seconds.  It has the same text, if the text is in whole milliseconds and `i` is not just below one second.  Within the last
275808 nanoseconds of the range, `j` is a fixed negative duration. -/
def SameDur (i j : Int) : Prop :=
  IsI64 i ∧ 0 ≤ i ∧ (9223372036854500000 ≤ i → j = -9223372036854551616) ∧ (i < 9223372036854500000 →
    (i = 0 ∨ 500000 ≤ i ∧ ¬ (999500000 ≤ i ∧ i < 1000000000) → Duration.goString i = Duration.goString j) ∧ 0 ≤ j ∧
    (j = Duration.writtenNanos i.toNat ∨ j = Duration.writtenNanos i.toNat - 1) ∧
    (Duration.writtenNanos i.toNat % 1000000000 = 0 → j = Duration.writtenNanos i.toNat))

theorem sameDur_of (a : Duration.Arch) (i j : Int) (s : Bytes) (hi : IsI64 i) (h1 : Duration.goString i = some s)
    (h2 : Duration.parse a s = .ok j) : SameDur i j := by
  obtain ⟨c1, c2, c3⟩ := Duration.C06_cycle a i hi
  have hc : Duration.cycle a i = some j := by simp [Duration.cycle, h1, h2]
  have h0 : 0 ≤ i := by
    by_contra hn
    obtain ⟨t, k1, k2⟩ := c1 (by omega)
    rw [h1] at k1; injection k1 with k1; subst k1
    rw [h2] at k2; cases k2
  refine ⟨hi, h0, fun hn => by rw [c3 hn] at hc; injection hc with hc; exact hc.symm, fun ht => ?_⟩
  obtain ⟨v, k1, k2, k3, k4⟩ := c2 h0 ht
  rw [hc] at k1; injection k1 with k1; subst k1
  refine ⟨?_, k2, k3, k4⟩
  rintro (rfl | ⟨g1, g2⟩)
  · have : j = 0 := by
      have e : Duration.writtenNanos (Int.toNat 0) = 0 := by decide
      have := k4 (by rw [e])
      rw [e] at this; exact this
    rw [this]
  · obtain ⟨d, rfl⟩ : ∃ d : ℕ, i = d := ⟨i.toNat, by omega⟩
    obtain ⟨s', v, e1, e2, -, e3⟩ := Duration.C06_roundtrip_partial a d (by omega) (by omega) (by unfold Duration.msNanos; omega)
    rw [h1] at e1; injection e1 with e1; subst e1
    rw [h2] at e2; injection e2 with e2; subst e2
    rw [h1, e3]

theorem sameDur_zero : SameDur 0 0 :=
  ⟨by decide, le_refl _, fun h => by omega, fun _ => ⟨fun _ => rfl, le_refl _, Or.inl (by decide), fun _ => by decide⟩⟩

/-- A pattern of `b` bits that is a NaN. -/
def NaNBits (b x : Nat) : Prop := x < 2 ^ b ∧ expMax b * 2 ^ mantBits b < absBits b x

/-- Equality of simple values as `==` of Go gives it, except that durations are compared by `SameDur`, that a negative zero may
have become zero, and that NaNs are not told apart. -/
def SameLeaf : Kind → Val → Val → Prop
  | .float b, .float x, .float y => x = y ∨ (ZeroBits b x ∧ y = 0) ∨ (NaNBits b x ∧ NaNBits b y)
  | .floatInf, .float x, .float y => x = y ∨ (ZeroBits 64 x ∧ y = 0) ∨ (NaNBits 64 x ∧ NaNBits 64 y)
  | .duration, .int i, .int j => SameDur i j
  | _, v, w => v = w

/-- A simple value that can be written and read back as an attribute: strings are made of XML characters; the text of a
floating-point number is read as that number (a property of `strconv`), that of a NaN as a NaN; the text of a duration is read as a duration
(C06 says for which). -/
def LeafOk (io : FloatIO) : Kind → Val → Prop
  | .str, .str b => clean b = b
  | .float bits, .float x => clean (io.formatG bits x) = io.formatG bits x ∧ io.formatG bits x ≠ [] ∧
      ∃ y, io.parse bits (trimSpace (io.formatG bits x)) = some y ∧ (y = x ∨ NaNBits bits x ∧ NaNBits bits y)
  | .floatInf, .float x => x = infBits ∨ (clean (io.formatF x) = io.formatF x ∧ io.formatF x ≠ (b!"INF") ∧
      ∃ y, io.parse 64 (io.formatF x) = some y ∧ (y = x ∨ NaNBits 64 x ∧ NaNBits 64 y))
  | .duration, .int i => ∃ s j, Duration.goString i = some s ∧ Duration.parse io.arch s = .ok j
  | _, _ => True

theorem formatInt_graphic (i : Int) : ∀ b ∈ Strconv.formatInt i, Graphic b := by
  intro b hb
  unfold Strconv.formatInt at hb
  split at hb
  · rcases List.mem_cons.1 hb with rfl | hb
    · decide
    · exact digit_graphic b (Strconv.formatUint_digits _ b hb)
  · exact digit_graphic b (Strconv.formatUint_digits _ b hb)

theorem formatInt_ne (i : Int) : Strconv.formatInt i ≠ [] := by
  unfold Strconv.formatInt
  split
  · simp
  · exact Strconv.formatUint_ne _

theorem formatBool_graphic (c : Bool) : ∀ b ∈ Strconv.formatBool c, Graphic b := by
  cases c <;> decide

/-- The attribute text of a simple value is read as the same value. -/
theorem leaf_attr (io : FloatIO) (k : Kind) (v : Val) (hk : KindOk k v) (hb : (Sch.simple k).ok = true)
    (h : LeafOk io k v) :
    ∃ s w, simpleAttr io k v = .ok s ∧ clean s = s ∧ readSimpleAttr io k s = .ok w ∧ SameLeaf k v w := by
  cases k with
  | str =>
    cases v <;> simp only [KindOk] at hk
    exact ⟨_, _, rfl, h, rfl, rfl⟩
  | bool =>
    cases v <;> simp only [KindOk] at hk
    rename_i c
    refine ⟨_, .bool c, rfl, graphic_clean _ (formatBool_graphic c), ?_, rfl⟩
    cases c <;> krfl
  | int bits =>
    cases v <;> simp only [KindOk] at hk
    rename_i i
    simp only [Sch.ok, decide_eq_true_eq] at hb
    refine ⟨_, .int i, rfl, graphic_clean _ (formatInt_graphic i), ?_, rfl⟩
    refine (C41_read_int io bits hb _ _).2 (Or.inr ⟨_, i, (trimmed_iff _ _).2 ?_, formatInt_denotes i, hk.1, hk.2, rfl⟩)
    exact (graphic_trim _ (formatInt_graphic i)).symm
  | uint bits =>
    cases v <;> simp only [KindOk] at hk
    rename_i n
    have hs := Strconv.formatUint_spec n
    have hg : ∀ b ∈ Strconv.formatUint n, Graphic b := fun b hb => digit_graphic b (hs.2.1 b hb)
    refine ⟨_, .uint n, rfl, graphic_clean _ hg, ?_, rfl⟩
    refine (C41_read_uint io bits _ _).2 (Or.inr ⟨_, (trimmed_iff _ _).2 (graphic_trim _ hg).symm, hs.2.2, hs.2.1, ?_, ?_⟩)
    · rw [hs.1]; exact hk
    · rw [hs.1]
  | float bits =>
    cases v <;> simp only [KindOk] at hk
    obtain ⟨h1, h2, y, h3, h4⟩ := h
    rename_i x
    refine ⟨_, .float y, rfl, h1, ?_, h4.elim (fun e => Or.inl e.symm) fun e => Or.inr (Or.inr e)⟩
    simp only [readSimpleAttr, copySimple, if_neg h2, h3]
  | duration =>
    cases v <;> simp only [KindOk] at hk
    obtain ⟨s, j, h1, h2⟩ := h
    refine ⟨s, .int j, ?_, ?_, ?_, ?_⟩
    · simp only [simpleAttr, h1]
    · refine graphic_clean _ fun b hb => ?_
      rcases Duration.C04_alphabet io.arch s j h2 b hb with h | h
      · exact digit_graphic b h
      · have hall : ∀ b ∈ b!"PDTHMS.", Graphic b := by decide
        exact hall b h
    · simp only [readSimpleAttr, h2]
    · exact sameDur_of io.arch _ j s hk h1 h2
  | floatInf =>
    cases v <;> simp only [KindOk] at hk
    rename_i x
    by_cases hx : x = infBits
    · subst hx
      exact ⟨b!"INF", .float infBits, rfl, by decide, rfl, Or.inl rfl⟩
    · rcases h with h | ⟨h1, h2, y, h3, h4⟩
      · exact absurd h hx
      · refine ⟨io.formatF x, .float y, ?_, h1, ?_, h4.elim (fun e => Or.inl e.symm) fun e => Or.inr (Or.inr e)⟩
        · simp only [simpleAttr, floatInfText, if_neg hx]
        · simp only [readSimpleAttr, if_neg h2, h3]

/-- The kinds used for elements and character data: strings and unsigned integers. -/
def contentKind : Kind → Bool
  | .str => true
  | .uint _ => true
  | _ => false

/-- The text of a simple value in an element is read as the same value. -/
theorem leaf_content (io : FloatIO) (k : Kind) (v : Val) (hk : KindOk k v) (hc : contentKind k = true) (h : LeafOk io k v) :
    ∃ s, marshalSimple io k v = .ok s ∧ clean s = s ∧ copySimple io k s = .ok v := by
  cases k <;> simp only [contentKind, Bool.false_eq_true] at hc
  · obtain ⟨s, w, h1, h2, h3, h4⟩ := leaf_attr io .str v hk rfl h
    cases v <;> simp only [KindOk] at hk
    exact ⟨_, rfl, h, rfl⟩
  · rename_i bits
    obtain ⟨s, w, h1, h2, h3, h4⟩ := leaf_attr io (.uint bits) v hk rfl h
    cases v <;> simp only [KindOk] at hk
    refine ⟨s, h1, h2, ?_⟩
    rw [(C41_content io bits s).2, h3]
    congr 1
    exact h4.symm

end Verif.Bind
