import Verif.XmlText

/-!
C23 (escaping and reading are inverse) and C24 (escaped text contains no markup), and the facts about `text` used
by the tokenizer proofs.
-/
namespace Verif.Xml

open Verif.Utf8

/-! ### Specification -/

/-- The `Char` production of XML 1.0 (section 2.2). -/
def IsXmlChar (n : Nat) : Prop :=
  n = 0x9 ∨ n = 0xA ∨ n = 0xD ∨ (0x20 ≤ n ∧ n ≤ 0xD7FF) ∨ (0xE000 ≤ n ∧ n ≤ 0xFFFD) ∨ (0x10000 ≤ n ∧ n ≤ 0x10FFFF)

instance (n : Nat) : Decidable (IsXmlChar n) := by unfold IsXmlChar; infer_instance

/-- The UTF-8 text of a list of code points. -/
def utf8 (cs : List Nat) : Bytes := cs.flatMap encodeRune

/-- What a character that XML cannot carry, or a malformed byte, is replaced with: U+FFFD. -/
def cleanRune (p : Nat × Bytes) : Bytes := if IsXmlChar p.1 ∧ ¬ (p.1 = 0xFFFD ∧ p.2.length = 1) then p.2 else fffd

/-- A byte string with everything XML cannot carry replaced by U+FFFD. -/
def clean (s : Bytes) : Bytes := (runes s).flatMap cleanRune

/-- The references the encoder uses. -/
def refs : List Bytes :=
  [(b!"&#34;"), (b!"&#39;"), (b!"&amp;"), (b!"&lt;"), (b!"&gt;"), (b!"&#x9;"), (b!"&#xA;"), (b!"&#xD;")]

/-- A byte with no meaning as markup. -/
def PlainByte (b : UInt8) : Prop :=
  b ≠ ch%'<' ∧ b ≠ ch%'>' ∧ b ≠ ch%'&' ∧ b ≠ ch%'"' ∧ b ≠ ch%'\'' ∧ b ≠ ch%'\r'

instance (b : UInt8) : Decidable (PlainByte b) := by unfold PlainByte; infer_instance

/-- Text that cannot be mistaken for markup: plain bytes, and references from the fixed list. -/
inductive Inert : Bytes → Prop where
  | nil : Inert []
  | plain (b : UInt8) (t : Bytes) : PlainByte b → Inert t → Inert (b :: t)
  | ref (e t : Bytes) : e ∈ refs → Inert t → Inert (e ++ t)

/-- The ranges of a table are in increasing order and do not overlap. -/
def sortedTable : List (Nat × Nat × Nat) → Bool
  | (lo, hi, st) :: (lo', hi', st') :: t =>
    decide (lo ≤ hi) && decide (hi < lo') && sortedTable ((lo', hi', st') :: t)
  | _ => true

/-- The tables are sorted, as the binary search of `unicode.Is` requires. -/
theorem nameTables_sorted : sortedTable firstTable = true ∧ sortedTable secondTable = true := by decide +kernel

/-! ### The loop without fuel -/

theorem nameRef_lt (s t r : Bytes) (h : nameRef s = .ok (t, r)) : r.length < s.length := by
  unfold nameRef readName at h
  have hd : (s.dropWhile nameOrHigh).length ≤ s.length := (List.dropWhile_sublist _).length_le
  split at h
  · cases h
  · cases h
  · rename_i nm b r' he
    split at he
    · cases he
    · injection he with he
      injection he with h1 h2
      rw [h2] at hd
      simp at hd
      split at h
      · cases h
      split at h
      · split at h
        · injection h with h; injection h with _ h; subst h; omega
        · cases h
      · cases h

theorem numRef_lt (hex : Bool) (s t r : Bytes) (h : numRef hex s = .ok (t, r)) : r.length < s.length := by
  unfold numRef at h
  have hd : (s.dropWhile (isRefDigit hex)).length ≤ s.length := (List.dropWhile_sublist _).length_le
  split at h
  · cases h
  · rename_i b r' he
    rw [he] at hd
    simp at hd
    split at h
    · cases h
    split at h
    · injection h with h; injection h with _ h; subst h; omega
    · cases h

theorem entityRef_lt (s t r : Bytes) (h : entityRef s = .ok (t, r)) : r.length < s.length := by
  unfold entityRef at h
  split at h
  · cases h
  · split at h
    · cases h
    · exact nameRef_lt _ _ _ h
  · split at h
    · split at h
      · have := numRef_lt _ _ _ _ h; simp; omega
      · have := numRef_lt _ _ _ _ h; simp at this ⊢; omega
    · exact nameRef_lt _ _ _ h

theorem textLoop_fuel (n m : Nat) (q : Option UInt8) (cd : Bool) (b0 b1 : UInt8) (buf s : Bytes)
    (h1 : s.length < n) (h2 : s.length < m) :
    textLoop n q cd b0 b1 buf s = textLoop m q cd b0 b1 buf s := by
  induction n generalizing m b0 b1 buf s with
  | zero => omega
  | succ n ih =>
    cases m with
    | zero => omega
    | succ m =>
      match s with
      | [] => rfl
      | b :: r =>
        simp at h1 h2
        simp only [textLoop]
        split
        · rfl
        split
        · rfl
        split
        · rfl
        split
        · rfl
        split
        · split
          · rfl
          · rename_i t r' he
            have := entityRef_lt _ _ _ he
            exact ih _ _ _ _ _ (by omega) (by omega)
        · exact ih _ _ _ _ _ (by omega) (by omega)

/-- `textLoop` with enough fuel. -/
def textL (q : Option UInt8) (cd : Bool) (b0 b1 : UInt8) (buf s : Bytes) : Except XErr (Bytes × Bytes) :=
  textLoop (s.length + 1) q cd b0 b1 buf s

theorem textL_ref (q : Option UInt8) (b0 b1 : UInt8) (buf s t r : Bytes) (h : entityRef s = .ok (t, r))
    (hq : q ≠ some ch%'&') : textL q false b0 b1 buf (ch%'&' :: s) = textL q false 0 0 (buf ++ t) r := by
  have hl := entityRef_lt _ _ _ h
  unfold textL
  rw [show (ch%'&' :: s).length + 1 = (s.length + 1) + 1 from rfl]
  conv => lhs; simp only [textLoop]
  rw [if_neg (fun h => absurd h.2.2.2 (by decide)), if_neg (by decide), if_neg (fun h => absurd h.1 (by decide)),
    if_neg hq, if_pos (by decide), h]
  exact textLoop_fuel _ _ _ _ _ _ _ _ (by omega) (by omega)

theorem textL_plain (q : Option UInt8) (b0 b1 b : UInt8) (buf r : Bytes)
    (h1 : b ≠ ch%'<') (h2 : b ≠ ch%'>') (h3 : b ≠ ch%'&') (h4 : b ≠ ch%'\r') (hq : q ≠ some b) (hb : b1 ≠ ch%'\r') :
    textL q false b0 b1 buf (b :: r) = textL q false b1 b (buf ++ [b]) r := by
  unfold textL
  rw [show (b :: r).length + 1 = (r.length + 1) + 1 from rfl]
  conv => lhs; simp only [textLoop]
  rw [if_neg (by simp [h2]), if_neg (by simp [h1]), if_neg (by simp [h2]), if_neg hq, if_neg (by simp [h3])]
  unfold putByte
  rw [if_neg h4, if_neg (by simp [hb])]

theorem textL_plains (q : Option UInt8) (c : Bytes) (hc : ∀ b ∈ c, PlainByte b) (hq : ∀ b ∈ c, q ≠ some b)
    (b0 b1 : UInt8) (hb : b1 ≠ ch%'\r') (buf r : Bytes) :
    ∃ b0' b1', b1' ≠ ch%'\r' ∧ textL q false b0 b1 buf (c ++ r) = textL q false b0' b1' (buf ++ c) r := by
  induction c generalizing b0 b1 buf with
  | nil => exact ⟨b0, b1, hb, by simp⟩
  | cons b c ih =>
    have hp := hc b (by simp)
    obtain ⟨x, y, hy, e⟩ := ih (fun b hb => hc b (by simp [hb])) (fun b hb => hq b (by simp [hb])) b1 b hp.2.2.2.2.2
      (buf ++ [b])
    refine ⟨x, y, hy, ?_⟩
    rw [List.cons_append, textL_plain q b0 b1 b buf _ hp.1 hp.2.1 hp.2.2.1 hp.2.2.2.2.2 (hq b (by simp)) hb, e]
    simp

/-- A piece of escaped text and what it stands for. -/
inductive Piece : Bytes → Bytes → Prop where
  | plain (c : Bytes) : (∀ b ∈ c, PlainByte b) → Piece c c
  | ref (e t : Bytes) : e ∈ refs → (∀ r, entityRef (e.tail ++ r) = .ok (t, r)) → Piece e t

theorem refs_amp : ∀ e ∈ refs, e = ch%'&' :: e.tail := by decide

theorem textL_pieces {α : Type} (q : Option UInt8) (hq : ∀ b, q = some b → b = ch%'"' ∨ b = ch%'\'') (f g : α → Bytes) (l : List α)
    (h : ∀ x ∈ l, Piece (f x) (g x)) (b0 b1 : UInt8) (hb : b1 ≠ ch%'\r') (buf r : Bytes) :
    ∃ b0' b1', b1' ≠ ch%'\r' ∧
      textL q false b0 b1 buf (l.flatMap f ++ r) = textL q false b0' b1' (buf ++ l.flatMap g) r := by
  induction l generalizing b0 b1 buf with
  | nil => exact ⟨b0, b1, hb, by simp⟩
  | cons x l ih =>
    have hx := h x (by simp)
    rw [List.flatMap_cons, List.flatMap_cons, List.append_assoc]
    generalize hfx : f x = fx at hx
    generalize hgx : g x = gx at hx
    cases hx with
    | plain hc =>
      have hq' : ∀ b ∈ fx, q ≠ some b := by
        intro b hb' e
        have := hc b hb'
        rcases hq b e with rfl | rfl
        · exact this.2.2.2.1 rfl
        · exact this.2.2.2.2.1 rfl
      obtain ⟨u, v, hv, e1⟩ := textL_plains q fx hc hq' b0 b1 hb buf (l.flatMap f ++ r)
      obtain ⟨u', v', hv', e2⟩ := ih (fun y hy => h y (by simp [hy])) u v hv (buf ++ fx)
      exact ⟨u', v', hv', by rw [e1, e2, List.append_assoc]⟩
    | ref _ he ht =>
      have hq' : q ≠ some ch%'&' := by
        intro e
        rcases hq _ e with h | h <;> revert h <;> decide
      obtain ⟨u', v', hv', e2⟩ := ih (fun y hy => h y (by simp [hy])) 0 0 (by decide) (buf ++ gx)
      refine ⟨u', v', hv', ?_⟩
      rw [refs_amp fx he, List.cons_append, textL_ref q b0 b1 buf _ gx (l.flatMap f ++ r) (ht _) hq', e2, List.append_assoc]

/-! ### Pieces written for the runes of a string -/

theorem inCharRange_iff (n : Nat) : inCharRange n = true ↔ IsXmlChar n := by
  unfold inCharRange IsXmlChar
  simp only [Bool.or_eq_true, Bool.and_eq_true, decide_eq_true_eq]
  omega

theorem escDefault_eq (r : Nat) (c : Bytes) : escDefault r c = cleanRune (r, c) := by
  unfold escDefault cleanRune
  have := inCharRange_iff r
  by_cases h : IsXmlChar r
  · have hr := this.2 h
    by_cases h2 : r = 0xFFFD ∧ c.length = 1
    · rw [if_pos (Or.inr h2), if_neg (by simp [h2])]
    · rw [if_neg (by simp [hr]; simpa using h2), if_pos ⟨h, h2⟩]
  · have hr : inCharRange r = false := by
      cases hc : inCharRange r
      · rfl
      · exact absurd (this.1 hc) h
    rw [if_pos (Or.inl hr), if_neg (by simp [h])]

theorem fffd_plain : ∀ b ∈ fffd, PlainByte b := by decide

theorem plain_of_high (b : UInt8) (h : 0x80 ≤ b.toNat) : PlainByte b := by
  refine ⟨?_, ?_, ?_, ?_, ?_, ?_⟩ <;> (rintro rfl; revert h; decide)

theorem chunk_single {r : Nat} {c : Bytes} (h : IsChunk r c) (hr : r < 0x80) : ∃ b, c = [b] ∧ b.toNat = r := by
  obtain ⟨hne, hd⟩ := h
  have h0 := hd []
  rw [List.append_nil] at h0
  obtain ⟨b, t, rfl, hb, hw⟩ := decode_lt_128 c (by rw [h0]; exact hr)
  rw [h0] at hb hw
  simp at hw
  subst hw
  exact ⟨b, rfl, hb⟩

theorem chunk_high {r : Nat} {c : Bytes} (h : IsChunk r c) (hn : ¬ (r = 0xFFFD ∧ c.length = 1)) (hr : 0x80 ≤ r) :
    ∀ b ∈ c, 0x80 ≤ b.toNat := by
  obtain ⟨hne, hd⟩ := h
  have h0 := hd []
  rw [List.append_nil] at h0
  have := decode_high c hne (by rw [h0]; intro e; injection e with e1 e2; exact hn ⟨e1, e2⟩) (by rw [h0]; exact hr)
  rw [h0] at this
  simpa using this

theorem rune_ascii (s : Bytes) (p : Nat × Bytes) (hp : p ∈ runes s) (hr : p.1 < 0x80) : ∃ b, p.2 = [b] ∧ b.toNat = p.1 := by
  rcases runes_mem s p hp with ⟨h, _⟩ | ⟨h, _⟩
  · omega
  · exact chunk_single h hr

theorem cleanRune_plain (s : Bytes) (p : Nat × Bytes) (hp : p ∈ runes s) (h34 : p.1 ≠ 34) (h39 : p.1 ≠ 39)
    (h38 : p.1 ≠ 38) (h60 : p.1 ≠ 60) (h62 : p.1 ≠ 62) (h13 : p.1 ≠ 13) : ∀ b ∈ cleanRune p, PlainByte b := by
  unfold cleanRune
  split
  · rename_i hc
    intro b hb
    by_cases hr : p.1 < 0x80
    · obtain ⟨c, hc', hcn⟩ := rune_ascii s p hp hr
      rw [hc'] at hb
      simp at hb
      subst hb
      refine ⟨?_, ?_, ?_, ?_, ?_, ?_⟩ <;>
        (rintro rfl; rw [← hcn] at h34 h39 h38 h60 h62 h13; revert h34 h39 h38 h60 h62 h13; decide)
    · rcases runes_mem s p hp with ⟨h1, c, h2, _⟩ | ⟨h1, h2⟩
      · exact absurd ⟨h1, by rw [h2]; rfl⟩ hc.2
      · exact plain_of_high b (chunk_high h1 h2 (by omega) b hb)
  · exact fffd_plain

theorem clean_single (p : Nat × Bytes) (b : UInt8) (h : p.2 = [b]) (hr : p.1 < 0x80) (hx : IsXmlChar p.1) :
    cleanRune p = [b] := by
  unfold cleanRune
  rw [if_pos ⟨hx, by omega⟩, h]

theorem single_piece (s : Bytes) (p : Nat × Bytes) (hp : p ∈ runes s) (e : Bytes) (c : UInt8) (hc : p.1 = c.toNat)
    (h80 : c.toNat < 0x80) (hx : IsXmlChar c.toNat) (he : e ∈ refs) (h : ∀ r, entityRef (e.tail ++ r) = .ok ([c], r)) :
    Piece e (cleanRune p) := by
  obtain ⟨b, hb, hbn⟩ := rune_ascii s p hp (by omega)
  have : b = c := UInt8.toNat_inj.mp (by omega)
  subst this
  rw [clean_single p b hb (by omega) (by rw [hc]; exact hx)]
  exact .ref e [b] he h

theorem ref_quot (r : Bytes) : entityRef ((b!"&#34;").tail ++ r) = .ok ([ch%'"'], r) := rfl
theorem ref_apos (r : Bytes) : entityRef ((b!"&#39;").tail ++ r) = .ok ([ch%'\''], r) := rfl
theorem ref_tab (r : Bytes) : entityRef ((b!"&#x9;").tail ++ r) = .ok ([ch%'\t'], r) := rfl
theorem ref_nl (r : Bytes) : entityRef ((b!"&#xA;").tail ++ r) = .ok ([ch%'\n'], r) := rfl
theorem ref_cr (r : Bytes) : entityRef ((b!"&#xD;").tail ++ r) = .ok ([ch%'\r'], r) := rfl

theorem readName_append (nm r : Bytes) (b : UInt8) (h : ∀ x ∈ nm, nameOrHigh x = true) (hb : nameOrHigh b = false) :
    readName (nm ++ b :: r) = .ok (nm, b :: r) := by
  unfold readName
  rw [List.dropWhile_append_of_pos h, List.takeWhile_append_of_pos h, List.dropWhile_cons_of_neg (by simp [hb]),
    List.takeWhile_cons_of_neg (by simp [hb])]
  simp

theorem nameRef_eq (nm r : Bytes) (c : Nat) (h : ∀ x ∈ nm, nameOrHigh x = true) (hn : isName nm = true)
    (he : entity nm = some c) : nameRef (nm ++ ch%';' :: r) = .ok (encodeRune c, r) := by
  unfold nameRef
  rw [readName_append nm r _ h (by decide)]
  simp [hn, he]

theorem ref_amp (r : Bytes) : entityRef ((b!"&amp;").tail ++ r) = .ok ([ch%'&'], r) :=
  nameRef_eq b!"amp" r 38 (by decide) (by decide +kernel) (by decide)
theorem ref_lt (r : Bytes) : entityRef ((b!"&lt;").tail ++ r) = .ok ([ch%'<'], r) :=
  nameRef_eq b!"lt" r 60 (by decide) (by decide +kernel) (by decide)
theorem ref_gt (r : Bytes) : entityRef ((b!"&gt;").tail ++ r) = .ok ([ch%'>'], r) :=
  nameRef_eq b!"gt" r 62 (by decide) (by decide +kernel) (by decide)

theorem escText_piece (nl : Bool) (s : Bytes) (p : Nat × Bytes) (hp : p ∈ runes s) :
    Piece (escTextRune nl p) (cleanRune p) := by
  unfold escTextRune
  split
  · rename_i h; exact single_piece s p hp _ ch%'"' h (by decide) (by decide) (by decide) ref_quot
  split
  · rename_i h; exact single_piece s p hp _ ch%'\'' h (by decide) (by decide) (by decide) ref_apos
  split
  · rename_i h; exact single_piece s p hp _ ch%'&' h (by decide) (by decide) (by decide) ref_amp
  split
  · rename_i h; exact single_piece s p hp _ ch%'<' h (by decide) (by decide) (by decide) ref_lt
  split
  · rename_i h; exact single_piece s p hp _ ch%'>' h (by decide) (by decide) (by decide) ref_gt
  split
  · rename_i h
    split
    · exact single_piece s p hp _ ch%'\n' h (by decide) (by decide) (by decide) ref_nl
    · obtain ⟨b, hb, hbn⟩ := rune_ascii s p hp (by omega)
      have : b = ch%'\n' := UInt8.toNat_inj.mp (by rw [hbn, h]; rfl)
      subst this
      rw [clean_single p _ hb (by omega) (by rw [h]; decide), hb]
      exact .plain _ (by decide)
  split
  · rename_i h; exact single_piece s p hp _ ch%'\r' h (by decide) (by decide) (by decide) ref_cr
  · rw [escDefault_eq]
    exact .plain _ (cleanRune_plain s p hp (by assumption) (by assumption) (by assumption) (by assumption)
      (by assumption) (by assumption))

theorem escString_piece (s : Bytes) (p : Nat × Bytes) (hp : p ∈ runes s) : Piece (escStringRune p) (cleanRune p) := by
  unfold escStringRune
  split
  · rename_i h; exact single_piece s p hp _ ch%'"' h (by decide) (by decide) (by decide) ref_quot
  split
  · rename_i h; exact single_piece s p hp _ ch%'\'' h (by decide) (by decide) (by decide) ref_apos
  split
  · rename_i h; exact single_piece s p hp _ ch%'&' h (by decide) (by decide) (by decide) ref_amp
  split
  · rename_i h; exact single_piece s p hp _ ch%'<' h (by decide) (by decide) (by decide) ref_lt
  split
  · rename_i h; exact single_piece s p hp _ ch%'>' h (by decide) (by decide) (by decide) ref_gt
  split
  · rename_i h; exact single_piece s p hp _ ch%'\t' h (by decide) (by decide) (by decide) ref_tab
  split
  · rename_i h; exact single_piece s p hp _ ch%'\n' h (by decide) (by decide) (by decide) ref_nl
  split
  · rename_i h; exact single_piece s p hp _ ch%'\r' h (by decide) (by decide) (by decide) ref_cr
  · rw [escDefault_eq]
    exact .plain _ (cleanRune_plain s p hp (by assumption) (by assumption) (by assumption) (by assumption)
      (by assumption) (by assumption))

/-! ### The cleaned text passes the character check -/

/-- Rune and bytes after cleaning. -/
def cleaned (p : Nat × Bytes) : Nat × Bytes :=
  if IsXmlChar p.1 ∧ ¬ (p.1 = 0xFFFD ∧ p.2.length = 1) then p else (0xFFFD, fffd)

theorem cleaned_snd (p : Nat × Bytes) : (cleaned p).2 = cleanRune p := by
  unfold cleaned cleanRune; split <;> rfl

theorem cleaned_chunk (s : Bytes) (p : Nat × Bytes) (hp : p ∈ runes s) : IsChunk (cleaned p).1 (cleaned p).2 := by
  unfold cleaned
  split
  · rename_i hc
    rcases runes_mem s p hp with ⟨h1, c, h2, _⟩ | ⟨h1, _⟩
    · exact absurd ⟨h1, by rw [h2]; rfl⟩ hc.2
    · exact h1
  · exact isChunk_fffd

theorem cleaned_ok (p : Nat × Bytes) :
    IsXmlChar (cleaned p).1 ∧ ¬ ((cleaned p).1 = 0xFFFD ∧ (cleaned p).2.length = 1) := by
  unfold cleaned
  split
  · assumption
  · exact ⟨by decide, by decide⟩

theorem runes_clean (s : Bytes) : runes (clean s) = (runes s).map cleaned := by
  have h := runes_flatMap cleaned (runes s) (cleaned_chunk s)
  rw [← h]
  unfold clean
  congr 1
  have : cleanRune = fun p => (cleaned p).2 := funext fun p => (cleaned_snd p).symm
  rw [this]

theorem checkChars_none (l : List (Nat × Bytes)) :
    checkChars l = none ↔ ∀ p ∈ l, IsXmlChar p.1 ∧ ¬ (p.1 = 0xFFFD ∧ p.2.length = 1) := by
  induction l with
  | nil => simp [checkChars]
  | cons p l ih =>
    obtain ⟨r, c⟩ := p
    simp only [checkChars, List.mem_cons, forall_eq_or_imp]
    by_cases h : r = 0xFFFD ∧ c.length = 1
    · rw [if_pos h]; simp [h]
    · rw [if_neg h]
      by_cases h2 : inCharRange r = true
      · rw [if_pos h2, ih]
        exact ⟨fun h3 => ⟨⟨(inCharRange_iff r).1 h2, h⟩, h3⟩, fun h3 => h3.2⟩
      · rw [if_neg h2]
        simp only [reduceCtorEq, false_iff]
        exact fun h3 => h2 ((inCharRange_iff r).2 h3.1.1)

theorem checkChars_clean (s : Bytes) : checkChars (runes (clean s)) = none := by
  rw [checkChars_none, runes_clean]
  intro p hp
  obtain ⟨p', _, rfl⟩ := List.mem_map.1 hp
  exact cleaned_ok p'

/-- Text that the encoder writes unchanged in meaning: every rune is well formed and a character XML allows. -/
def IsXmlText (s : Bytes) : Prop := ∀ p ∈ runes s, IsXmlChar p.1 ∧ ¬ (p.1 = 0xFFFD ∧ p.2.length = 1)

instance (s : Bytes) : Decidable (IsXmlText s) := by unfold IsXmlText; infer_instance

theorem flatMap_congr {α β : Type} (l : List α) (f g : α → List β) (h : ∀ x ∈ l, f x = g x) :
    l.flatMap f = l.flatMap g := by
  induction l with
  | nil => rfl
  | cons x l ih =>
    rw [List.flatMap_cons, List.flatMap_cons, h x (by simp), ih (fun y hy => h y (by simp [hy]))]

theorem clean_of_xmlText (s : Bytes) (h : IsXmlText s) : clean s = s := by
  conv => rhs; rw [← runes_flatten s]
  exact flatMap_congr _ _ _ (fun p hp => by unfold cleanRune; rw [if_pos (h p hp)])

theorem xmlChar_scalar (n : Nat) (h : IsXmlChar n) : IsScalar n := by
  unfold IsXmlChar at h; unfold IsScalar; omega

theorem encodeRune_fffd_length : (encodeRune 0xFFFD).length = 3 := by decide

/-- The UTF-8 text of characters XML allows is such a text. -/
theorem xmlText_utf8 (cs : List Nat) (h : ∀ c ∈ cs, IsXmlChar c) : IsXmlText (utf8 cs) := by
  unfold IsXmlText utf8
  rw [runes_encode cs (fun c hc => xmlChar_scalar c (h c hc))]
  intro p hp
  obtain ⟨c, hc, rfl⟩ := List.mem_map.1 hp
  refine ⟨h c hc, ?_⟩
  rintro ⟨h1, h2⟩
  dsimp only at h1 h2
  rw [h1, encodeRune_fffd_length] at h2
  omega

theorem xmlText_clean (s : Bytes) : IsXmlText (clean s) := (checkChars_none _).1 (checkChars_clean s)

theorem xmlText_nil : IsXmlText [] := by decide

/-! ### C23: reading inverts escaping -/

theorem textL_nil (q : Option UInt8) (b0 b1 : UInt8) (buf : Bytes) : textL q false b0 b1 buf [] = .ok (buf, []) := rfl

theorem textL_lt (b0 b1 : UInt8) (buf r : Bytes) :
    textL none false b0 b1 buf (ch%'<' :: r) = .ok (buf, ch%'<' :: r) := by
  unfold textL
  rw [show (ch%'<' :: r).length + 1 = (r.length + 1) + 1 from rfl]
  simp only [textLoop]
  rw [if_neg (fun h => absurd h.2.2.2 (by decide)), if_pos (by decide), if_neg (by simp)]

theorem textL_quote (c : UInt8) (hc : c = ch%'"' ∨ c = ch%'\'') (b0 b1 : UInt8) (buf r : Bytes) :
    textL (some c) false b0 b1 buf (c :: r) = .ok (buf, r) := by
  unfold textL
  rw [show (c :: r).length + 1 = (r.length + 1) + 1 from rfl]
  simp only [textLoop]
  rw [if_neg (by simp), if_neg (by rcases hc with rfl | rfl <;> decide), if_neg (by simp), if_pos trivial]

/-- What may follow character data: a tag, or the end of the input. -/
def EndsText (r : Bytes) : Prop := r = [] ∨ ∃ r', r = ch%'<' :: r'

theorem text_of_pieces (q : Option UInt8) (hq : ∀ b, q = some b → b = ch%'"' ∨ b = ch%'\'') (f : Nat × Bytes → Bytes)
    (s : Bytes) (h : ∀ p ∈ runes s, Piece (f p) (cleanRune p)) (r r' : Bytes)
    (hend : ∀ b0 b1 buf, textL q false b0 b1 buf r = .ok (buf, r')) :
    text q false ((runes s).flatMap f ++ r) = .ok (clean s, r') := by
  obtain ⟨b0, b1, _, e⟩ := textL_pieces q hq f cleanRune (runes s) h 0 0 (by decide) [] r
  unfold text
  unfold textL at e hend
  rw [e, hend]
  simp only [List.nil_append]
  rw [show (runes s).flatMap cleanRune = clean s from rfl, checkChars_clean]

/-- C23, any byte string in element content: what `EscapeText` writes is read back as the string with everything XML
cannot carry replaced by U+FFFD, whatever tag follows. -/
theorem C23_content_any (nl : Bool) (s r : Bytes) (hr : EndsText r) :
    text none false (escapeText nl s ++ r) = .ok (clean s, r) := by
  refine text_of_pieces none (by simp) (escTextRune nl) s (fun p hp => escText_piece nl s p hp) r r ?_
  intro b0 b1 buf
  rcases hr with rfl | ⟨r', rfl⟩
  · exact textL_nil ..
  · exact textL_lt ..

/-- C23, any byte string in element content written with `EscapeString`. -/
theorem C23_string_any (s r : Bytes) (hr : EndsText r) :
    text none false (escapeString s ++ r) = .ok (clean s, r) := by
  refine text_of_pieces none (by simp) escStringRune s (fun p hp => escString_piece s p hp) r r ?_
  intro b0 b1 buf
  rcases hr with rfl | ⟨r', rfl⟩
  · exact textL_nil ..
  · exact textL_lt ..

/-- C23, any byte string in an attribute value between quotes. -/
theorem C23_attr_any (s r : Bytes) (c : UInt8) (hc : c = ch%'"' ∨ c = ch%'\'') :
    text (some c) false (escapeString s ++ c :: r) = .ok (clean s, r) := by
  refine text_of_pieces (some c) (by rintro b h; injection h with h; subst h; exact hc) escStringRune s
    (fun p hp => escString_piece s p hp) _ r ?_
  intro b0 b1 buf
  exact textL_quote c hc b0 b1 buf r

/-- C23: text made of characters XML allows survives writing as element content and reading, byte for byte. -/
theorem C23_content (nl : Bool) (cs : List Nat) (h : ∀ c ∈ cs, IsXmlChar c) (r : Bytes) (hr : EndsText r) :
    text none false (escapeText nl (utf8 cs) ++ r) = .ok (utf8 cs, r) := by
  rw [C23_content_any nl _ r hr, clean_of_xmlText _ (xmlText_utf8 cs h)]

/-- C23: the same for content written with `EscapeString`. -/
theorem C23_string (cs : List Nat) (h : ∀ c ∈ cs, IsXmlChar c) (r : Bytes) (hr : EndsText r) :
    text none false (escapeString (utf8 cs) ++ r) = .ok (utf8 cs, r) := by
  rw [C23_string_any _ r hr, clean_of_xmlText _ (xmlText_utf8 cs h)]

/-- C23: the same for attribute values. -/
theorem C23_attr (cs : List Nat) (h : ∀ c ∈ cs, IsXmlChar c) (r : Bytes) (c : UInt8) (hc : c = ch%'"' ∨ c = ch%'\'') :
    text (some c) false (escapeString (utf8 cs) ++ c :: r) = .ok (utf8 cs, r) := by
  rw [C23_attr_any _ r c hc, clean_of_xmlText _ (xmlText_utf8 cs h)]

/-- C23: two strings that are escaped to the same text agree in everything XML can carry. -/
theorem C23_injective (s s' : Bytes) (h : escapeString s = escapeString s') : clean s = clean s' := by
  have h1 := C23_string_any s [] (Or.inl rfl)
  have h2 := C23_string_any s' [] (Or.inl rfl)
  rw [h, h2] at h1
  injection h1 with h1
  injection h1 with h1
  exact h1.symm

/-- A case with quotes, markup, a line end and characters outside ASCII. -/
example : text (some ch%'"') false (escapeString (utf8 [34, 60, 38, 10, 0xE9, 0x1F600]) ++ ch%'"' :: b!" id=") =
    .ok (utf8 [34, 60, 38, 10, 0xE9, 0x1F600], b!" id=") :=
  C23_attr _ (by decide) _ _ (Or.inl rfl)

/-- A malformed byte and a control character are replaced. -/
example : clean [0x41, 0xFF, 0x01, 0x42] = [0x41] ++ fffd ++ fffd ++ [0x42] := by decide

/-- Reading inverts escaping only for text XML can carry: NUL becomes U+FFFD. -/
theorem C23_lossy : ∃ s, text none false (escapeText false s ++ b!"</a>") ≠ .ok (s, b!"</a>") := by
  refine ⟨[0], ?_⟩
  rw [C23_content_any false [0] _ (Or.inr ⟨_, rfl⟩)]
  intro e
  injection e with e
  injection e with e
  revert e
  decide

/-! ### C24: escaped text contains no markup -/

theorem inert_append {a b : Bytes} (ha : Inert a) (hb : Inert b) : Inert (a ++ b) := by
  induction ha with
  | nil => exact hb
  | plain x t hx _ ih => exact .plain x _ hx ih
  | ref e t he _ ih => rw [List.append_assoc]; exact .ref e _ he ih

theorem inert_plains (c : Bytes) (h : ∀ b ∈ c, PlainByte b) : Inert c := by
  induction c with
  | nil => exact .nil
  | cons b c ih => exact .plain b c (h b (by simp)) (ih (fun x hx => h x (by simp [hx])))

theorem inert_pieces {α : Type} (f g : α → Bytes) (l : List α) (h : ∀ x ∈ l, Piece (f x) (g x)) : Inert (l.flatMap f) := by
  induction l with
  | nil => exact .nil
  | cons x l ih =>
    rw [List.flatMap_cons]
    refine inert_append ?_ (ih (fun y hy => h y (by simp [hy])))
    have hx := h x (by simp)
    generalize f x = fx at hx
    generalize g x = gx at hx
    cases hx with
    | plain hc => exact inert_plains _ hc
    | ref _ he ht => have := Inert.ref fx [] he .nil; rwa [List.append_nil] at this

/-- C24: whatever the bytes of a value, what is written for it is inert. -/
theorem C24_string (s : Bytes) : Inert (escapeString s) :=
  inert_pieces escStringRune cleanRune (runes s) (fun p hp => escString_piece s p hp)

/-- C24 for character data. -/
theorem C24_content (nl : Bool) (s : Bytes) : Inert (escapeText nl s) :=
  inert_pieces (escTextRune nl) cleanRune (runes s) (fun p hp => escText_piece nl s p hp)

theorem inert_bytes {t : Bytes} (h : Inert t) :
    ∀ b ∈ t, b ≠ ch%'<' ∧ b ≠ ch%'>' ∧ b ≠ ch%'"' ∧ b ≠ ch%'\'' ∧ b ≠ ch%'\r' := by
  induction h with
  | nil => simp
  | plain x t hx _ ih =>
    intro b hb
    rcases List.mem_cons.1 hb with rfl | hb
    · exact ⟨hx.1, hx.2.1, hx.2.2.2.1, hx.2.2.2.2.1, hx.2.2.2.2.2⟩
    · exact ih b hb
  | ref e t he _ ih =>
    intro b hb
    rcases List.mem_append.1 hb with hb | hb
    · have : ∀ e ∈ refs, ∀ b ∈ e, b ≠ ch%'<' ∧ b ≠ ch%'>' ∧ b ≠ ch%'"' ∧ b ≠ ch%'\'' ∧ b ≠ ch%'\r' := by decide
      exact this e he b hb
    · exact ih b hb

/-- C24: no raw `<`, `>`, quote or carriage return in what is written for a value. -/
theorem C24_no_markup (s : Bytes) :
    ∀ b ∈ escapeString s, b ≠ ch%'<' ∧ b ≠ ch%'>' ∧ b ≠ ch%'"' ∧ b ≠ ch%'\'' ∧ b ≠ ch%'\r' :=
  inert_bytes (C24_string s)

/-- The hypothesis-free statements are about hostile values too. -/
example : escapeString b!"\"/><script x='&" = b!"&#34;/&gt;&lt;script x=&#39;&amp;" := by decide +kernel

end Verif.Xml
