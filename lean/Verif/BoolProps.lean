import Verif.Leaf
import Verif.KRfl

/-!
C80: which texts are understood as truth values (`/repo/xml/read.go` 676-686, with `strconv.ParseBool`).
-/
namespace Verif.Bind

open Verif.Xml Verif.Utf8

/-- The words of XML Schema. -/
def schemaWords : List (Bytes × Bool) := [((b!"true"), true), ((b!"1"), true), ((b!"false"), false), ((b!"0"), false)]

/-- The words that are also taken. -/
def moreWords : List (Bytes × Bool) :=
  [((b!"t"), true), ((b!"T"), true), ((b!"TRUE"), true), ((b!"True"), true),
    ((b!"f"), false), ((b!"F"), false), ((b!"FALSE"), false), ((b!"False"), false)]

theorem parseBool_iff (t : Bytes) (b : Bool) : Strconv.parseBool t = some b ↔ (t, b) ∈ schemaWords ∨ (t, b) ∈ moreWords := by
  constructor
  · intro h
    unfold Strconv.parseBool at h
    split at h
    · rename_i h1
      injection h with h
      subst h
      rcases h1 with rfl | rfl | rfl | rfl | rfl | rfl <;> simp [schemaWords, moreWords]
    · split at h
      · rename_i h1
        injection h with h
        subst h
        rcases h1 with rfl | rfl | rfl | rfl | rfl | rfl <;> simp [schemaWords, moreWords]
      · cases h
  · intro h
    simp only [schemaWords, moreWords, List.mem_cons, List.not_mem_nil, or_false, Prod.mk.injEq] at h
    rcases h with (⟨rfl, rfl⟩ | ⟨rfl, rfl⟩ | ⟨rfl, rfl⟩ | ⟨rfl, rfl⟩) |
      (⟨rfl, rfl⟩ | ⟨rfl, rfl⟩ | ⟨rfl, rfl⟩ | ⟨rfl, rfl⟩ | ⟨rfl, rfl⟩ | ⟨rfl, rfl⟩ | ⟨rfl, rfl⟩ | ⟨rfl, rfl⟩) <;> decide

/-- **C80**, reading a truth value: exactly the words of XML Schema and eight more, with white space around them, and the empty text, which is
false. -/
theorem C80_read (io : FloatIO) (s : Bytes) (w : Val) :
    readSimpleAttr io .bool s = .ok w ↔ (s = [] ∧ w = .bool false) ∨
      ∃ t b, Trimmed s t ∧ ((t, b) ∈ schemaWords ∨ (t, b) ∈ moreWords) ∧ w = .bool b := by
  unfold readSimpleAttr copySimple
  dsimp only
  by_cases h : s = []
  · subst h
    rw [if_pos rfl]
    constructor
    · intro h; injection h with h; exact .inl ⟨rfl, h.symm⟩
    · rintro (⟨_, rfl⟩ | ⟨t, b, ht, hb, rfl⟩)
      · rfl
      · rw [trimmed_iff, trimSpace_nil] at ht
        subst ht
        rw [← parseBool_iff] at hb
        cases hb
  · rw [if_neg h]
    constructor
    · intro hw
      cases hp : Strconv.parseBool (trimSpace s) with
      | none => rw [hp] at hw; cases hw
      | some b =>
        rw [hp] at hw
        injection hw with hw
        exact .inr ⟨_, b, (trimmed_iff _ _).2 rfl, (parseBool_iff _ _).1 hp, hw.symm⟩
    · rintro (⟨h', _⟩ | ⟨t, b, ht, hb, rfl⟩)
      · exact absurd h' h
      · rw [trimmed_iff] at ht
        subst ht
        rw [(parseBool_iff _ _).2 hb]

/-- **C80**, the truth values of XML Schema are understood, with white space around them. -/
theorem C80_schema (io : FloatIO) (s t : Bytes) (b : Bool) (ht : Trimmed s t) (h : (t, b) ∈ schemaWords) :
    readSimpleAttr io .bool s = .ok (.bool b) := (C80_read io s _).2 (.inr ⟨t, b, ht, .inl h, rfl⟩)

/-- **C80**, writing: a truth value is written as a word of XML Schema that means it, so it is read back. -/
theorem C80_written (io : FloatIO) (b : Bool) : ∃ t, simpleAttr io .bool (.bool b) = .ok t ∧ marshalSimple io .bool (.bool b) = .ok t ∧
    (t, b) ∈ schemaWords := by
  cases b
  · exact ⟨b!"false", rfl, rfl, by decide⟩
  · exact ⟨b!"true", rfl, rfl, by decide⟩

/-- **C80**, refuted: texts that XML Schema does not know are accepted, the empty one among them, although one of white space is not. -/
theorem C80_refuted (io : FloatIO) : readSimpleAttr io .bool (b!"T") = .ok (.bool true) ∧ readSimpleAttr io .bool [] = .ok (.bool false) ∧
    readSimpleAttr io .bool (b!" ") = .error .number := ⟨by krfl, rfl, by krfl⟩

example (io : FloatIO) : readSimpleAttr io .bool (b!" 0\n") = .ok (.bool false) :=
  C80_schema io _ (b!"0") false ((trimmed_iff _ _).2 (by decide +kernel)) (by decide)

end Verif.Bind
