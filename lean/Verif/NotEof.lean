import Verif.XmlToken

/-!
`io.EOF` is what the decoder returns at the end of the input and only there: every other error is another one.
-/
namespace Verif.Xml

open Verif.Utf8

theorem readName_neof (s : Bytes) : readName s ≠ .error .eof := by
  unfold readName
  split <;> simp [unexpectedEOF]

theorem readXmlName_neof (s : Bytes) : readXmlName s ≠ .error .eof := by
  unfold readXmlName
  split
  · rename_i e he
    intro h
    cases h
    exact readName_neof s he
  · simp
  · split <;> simp

theorem nsname_neof (s : Bytes) : nsname s ≠ .error .eof := by
  unfold nsname
  split
  · rename_i e he
    intro h
    cases h
    exact readXmlName_neof s he
  · simp
  · split <;> simp

theorem numRef_neof (hex : Bool) (s : Bytes) : numRef hex s ≠ .error .eof := by
  unfold numRef
  split
  · simp [unexpectedEOF]
  · split
    · simp [badEntity]
    · split <;> simp [badEntity]

theorem nameRef_neof (s : Bytes) : nameRef s ≠ .error .eof := by
  unfold nameRef
  split
  · rename_i e he
    intro h
    cases h
    exact readName_neof s he
  · simp [unexpectedEOF]
  · split
    · simp [badEntity]
    · split
      · split <;> simp [badEntity]
      · simp [badEntity]

theorem entityRef_neof (s : Bytes) : entityRef s ≠ .error .eof := by
  unfold entityRef
  split
  · simp [unexpectedEOF]
  · split
    · simp [unexpectedEOF]
    · exact nameRef_neof _
  · split
    · split
      · exact numRef_neof _ _
      · exact numRef_neof _ _
    · exact nameRef_neof _

theorem textLoop_neof (n : Nat) (q : Option UInt8) (cd : Bool) (b0 b1 : UInt8) (buf s : Bytes) : textLoop n q cd b0 b1 buf s ≠ .error .eof := by
  induction n generalizing b0 b1 buf s with
  | zero => simp [textLoop, unexpectedEOF]
  | succ n ih =>
    cases s with
    | nil =>
      unfold textLoop
      split <;> simp
    | cons b r =>
      unfold textLoop
      split
      · split <;> simp
      · split
        · split <;> simp
        · split
          · simp
          · split
            · simp
            · split
              · split
                · rename_i e he
                  intro h
                  cases h
                  exact entityRef_neof r he
                · exact ih _ _ _ _
              · exact ih _ _ _ _

theorem checkChars_neof (l : List (Nat × Bytes)) : checkChars l ≠ some .eof := by
  induction l with
  | nil => simp [checkChars]
  | cons p l ih =>
    obtain ⟨r, c⟩ := p
    unfold checkChars
    split
    · simp
    · split
      · exact ih
      · simp

theorem text_neof (q : Option UInt8) (cd : Bool) (s : Bytes) : text q cd s ≠ .error .eof := by
  unfold text
  split
  · rename_i e he
    intro h
    cases h
    exact textLoop_neof _ _ _ _ _ _ _ he
  · split
    · rename_i e he
      intro h
      cases h
      exact checkChars_neof _ he
    · simp

theorem attrval_neof (s : Bytes) : attrval s ≠ .error .eof := by
  cases s with
  | nil => simp [attrval, unexpectedEOF]
  | cons b r =>
    unfold attrval
    dsimp only
    split
    · exact text_neof _ _ _
    · simp

theorem readAttr_neof (s : Bytes) : readAttr s ≠ .error .eof := by
  unfold readAttr
  split
  · rename_i e he
    intro h
    cases h
    exact nsname_neof s he
  · simp
  · split
    · simp [unexpectedEOF]
    · split
      · simp
      · split
        · rename_i e he
          intro h
          cases h
          exact attrval_neof _ he
        · simp

theorem attrLoop_neof (n : Nat) (acc : List Attr) (s : Bytes) : attrLoop n acc s ≠ .error .eof := by
  induction n generalizing acc s with
  | zero => simp [attrLoop, unexpectedEOF]
  | succ n ih =>
    unfold attrLoop
    split
    · simp [unexpectedEOF]
    · split
      · split
        · simp [unexpectedEOF]
        · split <;> simp
      · split
        · simp
        · split
          · rename_i e he
            intro h
            cases h
            exact readAttr_neof _ he
          · exact ih _ _

theorem piLoop_neof (b0 : UInt8) (buf s : Bytes) : piLoop b0 buf s ≠ .error .eof := by
  induction s generalizing b0 buf with
  | nil => simp [piLoop, unexpectedEOF]
  | cons b r ih =>
    unfold piLoop
    split
    · simp
    · exact ih _ _

theorem checkXmlDecl_neof (t d : Bytes) : checkXmlDecl t d ≠ some .eof := by
  unfold checkXmlDecl
  split
  · split
    · simp
    · split <;> simp
  · simp

theorem commentLoop_neof (b0 b1 : UInt8) (buf s : Bytes) : commentLoop b0 b1 buf s ≠ .error .eof := by
  induction s generalizing b0 b1 buf with
  | nil => simp [commentLoop, unexpectedEOF]
  | cons b r ih =>
    unfold commentLoop
    split
    · split <;> simp
    · exact ih _ _ _

theorem skipComment_neof (b0 b1 : UInt8) (s : Bytes) : skipComment b0 b1 s ≠ .error .eof := by
  induction s generalizing b0 b1 with
  | nil => simp [skipComment, unexpectedEOF]
  | cons b r ih =>
    unfold skipComment
    split
    · simp
    · exact ih _ _

theorem dirLoop_neof (n : Nat) (hd : Bool) (inq : UInt8) (dp : Int) (buf s : Bytes) : dirLoop n hd inq dp buf s ≠ .error .eof := by
  induction n generalizing hd inq dp buf s with
  | zero => simp [dirLoop, unexpectedEOF]
  | succ n ih =>
    cases s with
    | nil => simp [dirLoop, unexpectedEOF]
    | cons b r =>
      unfold dirLoop
      split
      · simp
      · split
        · exact ih _ _ _ _ _
        · split
          · exact ih _ _ _ _ _
          · split
            · exact ih _ _ _ _ _
            · split
              · exact ih _ _ _ _ _
              · split
                · split
                  · simp [unexpectedEOF]
                  · exact ih _ _ _ _ _
                  · split
                    · rename_i e he
                      intro h
                      cases h
                      exact skipComment_neof _ _ _ he
                    · exact ih _ _ _ _ _
                · exact ih _ _ _ _ _

theorem cdataOpen_neof (p s : Bytes) : cdataOpen p s ≠ .error .eof := by
  induction p generalizing s with
  | nil => simp [cdataOpen]
  | cons c p ih =>
    cases s with
    | nil => simp [cdataOpen, unexpectedEOF]
    | cons b s =>
      unfold cdataOpen
      split
      · simp
      · exact ih _

theorem endTag_neof (s : Bytes) : endTag s ≠ .error .eof := by
  unfold endTag
  split
  · rename_i e he
    intro h
    cases h
    exact nsname_neof _ he
  · simp
  · split
    · simp [unexpectedEOF]
    · split <;> simp

theorem piTag_neof (s : Bytes) : piTag s ≠ .error .eof := by
  unfold piTag
  split
  · rename_i e he
    intro h
    cases h
    exact readXmlName_neof _ he
  · simp
  · split
    · rename_i e he
      intro h
      cases h
      exact piLoop_neof _ _ _ he
    · split
      · rename_i e he
        intro h
        cases h
        exact checkXmlDecl_neof _ _ he
      · simp

theorem bangTag_neof (s : Bytes) : bangTag s ≠ .error .eof := by
  cases s with
  | nil => simp [bangTag, unexpectedEOF]
  | cons b r =>
    unfold bangTag
    dsimp only
    split
    · split
      · simp [unexpectedEOF]
      · split
        · simp
        · split
          · rename_i e he
            intro h
            cases h
            exact commentLoop_neof _ _ _ _ he
          · simp
    · split
      · split
        · rename_i e he
          intro h
          cases h
          exact cdataOpen_neof _ _ he
        · split
          · rename_i e he
            intro h
            cases h
            exact text_neof _ _ _ he
          · simp
      · split
        · rename_i e he
          intro h
          cases h
          exact dirLoop_neof _ _ _ _ _ _ he
        · simp

theorem startTag_neof (s : Bytes) : startTag s ≠ .error .eof := by
  unfold startTag
  split
  · rename_i e he
    intro h
    cases h
    exact nsname_neof _ he
  · simp
  · split
    · rename_i e he
      intro h
      cases h
      exact attrLoop_neof _ _ _ he
    · simp

/-- `rawToken` returns `io.EOF` only at the end of the input. -/
theorem rawToken_eof_iff (st : Raw) : rawToken st = .error .eof ↔ st = ⟨[], none⟩ := by
  constructor
  · intro h
    obtain ⟨rest, tc⟩ := st
    unfold rawToken at h
    cases tc with
    | some n => cases h
    | none =>
      cases rest with
      | nil => rfl
      | cons b r =>
        exfalso
        dsimp only at h
        split at h
        · split at h
          · rename_i e he
            cases h
            exact text_neof _ _ _ he
          · cases h
        · split at h
          · simp [unexpectedEOF] at h
          · split at h
            · exact endTag_neof _ h
            · split at h
              · exact piTag_neof _ h
              · split at h
                · exact bangTag_neof _ h
                · exact startTag_neof _ h
  · rintro rfl
    rfl

theorem pushNs_neof (as : List Attr) (ns : NsMap) (stk : List Stk) : pushNs as ns stk ≠ .error .eof := by
  induction as generalizing ns stk with
  | nil => simp [pushNs]
  | cons a as ih =>
    unfold pushNs
    split
    · split
      · simp
      · split
        · simp
        · exact ih _ _
    · split
      · exact ih _ _
      · exact ih _ _

theorem cook_neof (t : Token) (ns : NsMap) (stk : List Stk) : cook t ns stk ≠ .error .eof := by
  unfold cook
  split
  · split
    · rename_i e he
      intro h
      cases h
      exact pushNs_neof _ _ _ he
    · simp
  · unfold popElement
    split
    · rename_i e he
      intro h
      cases h
      split at he
      · split at he
        · cases he
        · split at he <;> cases he
      · cases he
    · simp
  · simp

/-- `Token` returns `io.EOF` only at the end of the input, with no element open. -/
theorem token_eof_iff (d : Dec) : token d = .error .eof ↔ d.raw = ⟨[], none⟩ ∧ d.stk = [] := by
  constructor
  · intro h
    unfold token at h
    cases hr : rawToken d.raw with
    | error e =>
      rw [hr] at h
      dsimp only at h
      split at h
      · simp [unexpectedEOF] at h
      · rename_i hn
        injection h with h
        subst h
        refine ⟨(rawToken_eof_iff _).mp hr, ?_⟩
        cases hs : d.stk with
        | nil => rfl
        | cons a b => exact absurd ⟨rfl, by simp [hs]⟩ hn
    | ok p =>
      obtain ⟨t, r⟩ := p
      rw [hr] at h
      dsimp only at h
      split at h
      · rename_i e he
        cases h
        exact absurd he (cook_neof _ _ _)
      · cases h
  · rintro ⟨h1, h2⟩
    unfold token
    rw [h1, h2]
    rfl

end Verif.Xml
