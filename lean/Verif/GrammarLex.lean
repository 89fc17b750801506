import Verif.Grammar
import Verif.XmlLex

/-!
The decoder on the productions of `Verif/Grammar.lean`: references, text, CDATA sections, comments, processing instructions and
tags are read as raw tokens with the values they stand for.
-/
namespace Verif.Grammar

open Verif.Xml Verif.Utf8

/-! ### Line ends -/

/-- Line ends, after the byte `b1`. -/
def eolFrom : UInt8 → Bytes → Bytes
  | _, [] => []
  | b1, b :: r => putByte b1 b ++ eolFrom b r

theorem eolFrom_eol : ∀ (s : Bytes) (b1 : UInt8), eolFrom b1 s = match s with
    | [] => []
    | b :: r => if b1 = ch%'\r' ∧ b = ch%'\n' then eol r else eol (b :: r)
  | [], b1 => rfl
  | [b], b1 => by
    simp only [eolFrom, putByte, eol, List.append_nil]
    by_cases h : b = ch%'\r'
    · subst h
      simp
    · simp [h]
  | b :: c :: r, b1 => by
    rw [eolFrom, eolFrom_eol (c :: r) b]
    by_cases h : b = ch%'\r'
    · subst h
      simp only [putByte, eol, if_true, true_and]
      rw [if_neg (show ¬ (b1 = ch%'\r' ∧ ch%'\r' = ch%'\n') from fun h => absurd h.2 (by decide))]
      split <;> rfl
    · simp only [putByte, eol, h, if_false, false_and]
      by_cases h2 : b1 = ch%'\r' ∧ b = ch%'\n'
      · rw [if_pos h2, if_pos h2]; rfl
      · rw [if_neg h2, if_neg h2]; rfl

theorem eolFrom_zero (s : Bytes) : eolFrom 0 s = eol s := by
  rw [eolFrom_eol]
  cases s with
  | nil => rfl
  | cons b r => dsimp only; rw [if_neg (fun h => absurd h.1 (by decide))]

/-- Line ends on runes, after a carriage return or not. -/
def eolR : Bool → List (Nat × Bytes) → List (Nat × Bytes)
  | _, [] => []
  | cr, p :: l => (if p.1 = 13 then [(10, [ch%'\n'])] else if cr = true ∧ p.1 = 10 then [] else [p]) ++ eolR (p.1 == 13) l

theorem eolFrom_high (c r : Bytes) (hc : ∀ b ∈ c, 0x80 ≤ b.toNat) (b1 : UInt8) (hne : c ≠ []) :
    ∃ b, 0x80 ≤ b.toNat ∧ eolFrom b1 (c ++ r) = c ++ eolFrom b r := by
  induction c generalizing b1 with
  | nil => exact absurd rfl hne
  | cons x c ih =>
    have hx := hc x (by simp)
    have hp : putByte b1 x = [x] := by
      unfold putByte
      rw [if_neg, if_neg]
      · rintro ⟨_, rfl⟩; revert hx; decide
      · rintro rfl; revert hx; decide
    cases c with
    | nil => exact ⟨x, hx, by simp [eolFrom, hp]⟩
    | cons y c =>
      obtain ⟨b, hb, e⟩ := ih (fun b hb => hc b (by simp [hb])) x (by simp)
      refine ⟨b, hb, ?_⟩
      rw [List.cons_append, eolFrom, e, hp]
      rfl

theorem eolR_spec : ∀ (l : List (Nat × Bytes)) (b1 : UInt8) (cr : Bool), cr = (b1 == ch%'\r') →
    (∀ p ∈ l, IsChunk p.1 p.2 ∧ ¬ (p.1 = 0xFFFD ∧ p.2.length = 1)) →
    eolFrom b1 (l.flatMap (·.2)) = (eolR cr l).flatMap (·.2)
  | [], b1, cr, _, _ => rfl
  | p :: l, b1, cr, hcr, h => by
    obtain ⟨hc, hn⟩ := h p (by simp)
    rw [List.flatMap_cons, eolR]
    by_cases hr : p.1 < 0x80
    · obtain ⟨b, hb, hbn⟩ := chunk_single hc hr
      have ih := eolR_spec l b (p.1 == 13) (by
        rw [← hbn, Bool.eq_iff_iff, beq_iff_eq, beq_iff_eq]
        constructor
        · intro e; exact UInt8.toNat_inj.1 e
        · rintro rfl; rfl) (fun q hq => h q (by simp [hq]))
      rw [hb, List.cons_append, List.nil_append, eolFrom, ih, List.flatMap_append]
      congr 1
      have h13 : b = ch%'\r' ↔ p.1 = 13 := by rw [← hbn, ← UInt8.toNat_inj]; rfl
      have h10 : b = ch%'\n' ↔ p.1 = 10 := by rw [← hbn, ← UInt8.toNat_inj]; rfl
      unfold putByte
      simp only [h13, h10, hcr, beq_iff_eq]
      split
      · rfl
      · split
        · rfl
        · simp [hb]
    · obtain ⟨b, hb, e⟩ := eolFrom_high p.2 (l.flatMap (·.2)) (chunk_high hc hn (by omega)) b1 (by
        have := chunk_high hc hn (by omega)
        intro h0
        have := hc.1
        rw [h0] at this
        simp at this)
      have ih := eolR_spec l b (p.1 == 13) (by
        rw [beq_eq_false_iff_ne.2 (by omega), eq_comm, beq_eq_false_iff_ne]
        rintro rfl
        revert hb; decide) (fun q hq => h q (by simp [hq]))
      rw [e, ih, List.flatMap_append, if_neg (by omega), if_neg (by omega)]
      simp

theorem eolR_mem : ∀ (l : List (Nat × Bytes)) (cr : Bool), ∀ p ∈ eolR cr l, p = (10, [ch%'\n']) ∨ p ∈ l
  | [], _, p, h => by cases h
  | q :: l, cr, p, h => by
    rw [eolR] at h
    rcases List.mem_append.1 h with h | h
    · split at h
      · exact Or.inl (by simpa using h)
      · split at h
        · cases h
        · exact Or.inr (by simp at h; simp [h])
    · rcases eolR_mem l _ p h with h | h
      · exact Or.inl h
      · exact Or.inr (by simp [h])

theorem xmlText_eol {s : Bytes} (h : IsXmlText s) : IsXmlText (eol s) := by
  have hw := xmlText_wf h
  have hs := eolR_spec (runes s) 0 false rfl (fun p hp => ⟨wf_chunk s hw p hp, (h p hp).2⟩)
  rw [runes_flatten, eolFrom_zero] at hs
  rw [hs]
  have hmem := eolR_mem (runes s) false
  have hr : runes ((eolR false (runes s)).flatMap (·.2)) = eolR false (runes s) := by
    have := runes_flatMap_append id (eolR false (runes s)) (by
      intro p hp
      rcases hmem p hp with rfl | hp
      · exact isChunk_ascii (ch%'\n') (by decide)
      · exact wf_chunk s hw p hp) []
    simpa using this
  intro p hp
  rw [hr] at hp
  rcases hmem p hp with rfl | hp
  · exact ⟨by unfold IsXmlChar; decide, by decide⟩
  · exact h p hp

/-! ### References -/

theorem dropWhile_append_stop {α : Type} (p : α → Bool) (l : List α) (b : α) (r : List α) (h : ∀ x ∈ l, p x = true) (hb : p b = false) :
    (l ++ b :: r).dropWhile p = b :: r ∧ (l ++ b :: r).takeWhile p = l := by
  constructor
  · rw [List.dropWhile_append_of_pos h, List.dropWhile_cons_of_neg (by simp [hb])]
  · rw [List.takeWhile_append_of_pos h, List.takeWhile_cons_of_neg (by simp [hb]), List.append_nil]

theorem digit_ref (hex : Bool) (b : UInt8) (h : IsDigit b) : isRefDigit hex b = true ∧ refDigit b = b.toNat - 48 := by
  have : ∀ n : Fin 256, ∀ hex, IsDigit (UInt8.ofNat n.val) → isRefDigit hex (UInt8.ofNat n.val) = true ∧
      refDigit (UInt8.ofNat n.val) = n.val - 48 := by unfold IsDigit; decide +kernel
  have := this ⟨b.toNat, b.toNat_lt⟩ hex
  simp only [UInt8.ofNat_toNat] at this
  exact this h

theorem hex_ref (b : UInt8) (h : IsHex b) : isRefDigit true b = true ∧ refDigit b = hexVal b := by
  have : ∀ n : Fin 256, IsHex (UInt8.ofNat n.val) → isRefDigit true (UInt8.ofNat n.val) = true ∧
      refDigit (UInt8.ofNat n.val) = hexVal (UInt8.ofNat n.val) := by unfold IsHex IsDigit; decide +kernel
  have := this ⟨b.toNat, b.toNat_lt⟩
  simp only [UInt8.ofNat_toNat] at this
  exact this h

theorem foldl_congr {α β : Type} (f g : β → α → β) (l : List α) (h : ∀ a, ∀ x ∈ l, f a x = g a x) (a : β) : l.foldl f a = l.foldl g a := by
  induction l generalizing a with
  | nil => rfl
  | cons x l ih =>
    rw [List.foldl_cons, List.foldl_cons, h a x (by simp)]
    exact ih (fun a y hy => h a y (by simp [hy])) _

theorem xmlChar_le {n : Nat} (h : IsXmlChar n) : n ≤ 0x10FFFF := by
  unfold IsXmlChar at h; omega

theorem numRef_spec (hex : Bool) (ds r : Bytes) (n : Nat) (hne : ds ≠ []) (hd : ∀ b ∈ ds, isRefDigit hex b = true) (hv : refVal hex ds = n)
    (hn : IsXmlChar n) : numRef hex (ds ++ ch%';' :: r) = .ok (encodeRune n, r) := by
  obtain ⟨h1, h2⟩ := dropWhile_append_stop (isRefDigit hex) ds (ch%';') r hd (by cases hex <;> decide)
  unfold numRef
  rw [h1, h2]
  dsimp only
  rw [if_neg (by simp), hv, if_pos ⟨hne, xmlChar_le hn⟩]

theorem entityRef_spec (x : Ref) (h : x.Ok) (r : Bytes) : ∃ s, x.src ++ r = ch%'&' :: s ∧ entityRef s = .ok (encodeRune x.code, r) := by
  cases x with
  | dec ds =>
    obtain ⟨h1, h2, h3⟩ := h
    refine ⟨ch%'#' :: (ds ++ ch%';' :: r), by simp [Ref.src], ?_⟩
    cases ds with
    | nil => exact absurd rfl h1
    | cons d ds =>
      rw [List.cons_append, entityRef, if_pos rfl, if_neg (by
        rintro rfl
        have := h2 _ (List.mem_cons_self ..)
        unfold IsDigit at this
        revert this; decide), ← List.cons_append]
      refine numRef_spec false _ r _ h1 (fun b hb => (digit_ref false b (h2 b hb)).1) ?_ h3
      exact foldl_congr _ _ _ (fun a b hb => by rw [(digit_ref false b (h2 b hb)).2]; rfl) 0
  | hex ds =>
    obtain ⟨h1, h2, h3⟩ := h
    refine ⟨ch%'#' :: ch%'x' :: (ds ++ ch%';' :: r), by simp [Ref.src], ?_⟩
    rw [entityRef, if_pos rfl, if_pos rfl]
    refine numRef_spec true _ r _ h1 (fun b hb => (hex_ref b (h2 b hb)).1) ?_ h3
    exact foldl_congr _ _ _ (fun a b hb => by rw [(hex_ref b (h2 b hb)).2]; rfl) 0
  | lt => exact ⟨b!"lt;" ++ r, rfl, nameRef_eq (b!"lt") r 60 (by decide) (by decide +kernel) (by decide)⟩
  | gt => exact ⟨b!"gt;" ++ r, rfl, nameRef_eq (b!"gt") r 62 (by decide) (by decide +kernel) (by decide)⟩
  | amp => exact ⟨b!"amp;" ++ r, rfl, nameRef_eq (b!"amp") r 38 (by decide) (by decide +kernel) (by decide)⟩
  | apos => exact ⟨b!"apos;" ++ r, rfl, nameRef_eq (b!"apos") r 39 (by decide) (by decide +kernel) (by decide)⟩
  | quot => exact ⟨b!"quot;" ++ r, rfl, nameRef_eq (b!"quot") r 34 (by decide) (by decide +kernel) (by decide)⟩

/-! ### Text -/

/-- Bytes that are neither markup nor the closing quote. -/
def Lit (q : Option UInt8) (l : Bytes) : Prop := ∀ b ∈ l, b ≠ ch%'<' ∧ b ≠ ch%'&' ∧ (q = none → b ≠ ch%'>') ∧ q ≠ some b

theorem textL_lit (q : Option UInt8) : ∀ (l : Bytes), Lit q l → ∀ (b0 b1 : UInt8) (buf r : Bytes),
    ∃ b0' b1', textL q false b0 b1 buf (l ++ r) = textL q false b0' b1' (buf ++ eolFrom b1 l) r
  | [], _, b0, b1, buf, r => ⟨b0, b1, by simp [eolFrom]⟩
  | b :: l, h, b0, b1, buf, r => by
    obtain ⟨h1, h2, h3, h4⟩ := h b (by simp)
    obtain ⟨x, y, e⟩ := textL_lit q l (fun c hc => h c (by simp [hc])) b1 b (buf ++ putByte b1 b) r
    refine ⟨x, y, ?_⟩
    rw [eolFrom, ← List.append_assoc, ← e]
    unfold textL
    rw [show (b :: l ++ r).length + 1 = ((l ++ r).length + 1) + 1 from rfl, List.cons_append]
    conv => lhs; simp only [textLoop]
    rw [if_neg (fun h => h3 h.1 h.2.2.2), if_neg (fun h => h1 h.1), if_neg (fun h => h3 h.2.2 h.1), if_neg h4,
      if_neg (fun h => h2 h.1)]

theorem textL_txt (q : Option UInt8) (hq : q ≠ some ch%'&') : ∀ (more : List (Ref × Bytes)), (∀ p ∈ more, p.1.Ok ∧ Lit q p.2) →
    ∀ (b0 b1 : UInt8) (buf r : Bytes), ∃ b0' b1', textL q false b0 b1 buf (more.flatMap (fun p => p.1.src ++ p.2) ++ r) =
      textL q false b0' b1' (buf ++ more.flatMap fun p => encodeRune p.1.code ++ eol p.2) r
  | [], _, b0, b1, buf, r => ⟨b0, b1, by simp⟩
  | p :: more, h, b0, b1, buf, r => by
    obtain ⟨h1, h2⟩ := h p (by simp)
    rw [List.flatMap_cons, List.flatMap_cons, List.append_assoc, List.append_assoc]
    obtain ⟨s, e1, e2⟩ := entityRef_spec p.1 h1 (p.2 ++ (more.flatMap (fun p => p.1.src ++ p.2) ++ r))
    obtain ⟨x, y, e3⟩ := textL_lit q p.2 h2 0 0 (buf ++ encodeRune p.1.code) (more.flatMap (fun p => p.1.src ++ p.2) ++ r)
    obtain ⟨x', y', e4⟩ := textL_txt q hq more (fun p hp => h p (by simp [hp])) x y (buf ++ encodeRune p.1.code ++ eolFrom 0 p.2) r
    refine ⟨x', y', ?_⟩
    rw [e1, textL_ref q b0 b1 buf s _ _ e2 hq, e3, e4, eolFrom_zero]
    simp only [List.append_assoc]

theorem xmlText_code {n : Nat} (h : IsXmlChar n) : IsXmlText (encodeRune n) := by
  have := xmlText_utf8 [n] (by simpa using h)
  simpa [utf8] using this

theorem ref_char (x : Ref) (h : x.Ok) : IsXmlChar x.code := by
  cases x with
  | dec ds => exact h.2.2
  | hex ds => exact h.2.2
  | _ => simp only [Ref.code]; unfold IsXmlChar; decide

theorem xmlText_value (t : Txt) (hl : ∀ l ∈ t.lits, IsXmlText l) (hr : ∀ p ∈ t.more, p.1.Ok) : IsXmlText (t.value eol) := by
  unfold Txt.value
  refine xmlText_append (xmlText_eol (hl _ (by simp [Txt.lits]))) ?_
  have : ∀ more : List (Ref × Bytes), (∀ p ∈ more, p.1.Ok ∧ IsXmlText p.2) → IsXmlText (more.flatMap fun p => encodeRune p.1.code ++ eol p.2) := by
    intro more
    induction more with
    | nil => intro _; exact xmlText_nil
    | cons p more ih =>
      intro h
      rw [List.flatMap_cons]
      obtain ⟨h1, h2⟩ := h p (by simp)
      exact xmlText_append (xmlText_append (xmlText_code (ref_char p.1 h1)) (xmlText_eol h2)) (ih fun p hp => h p (by simp [hp]))
  exact this _ fun p hp => ⟨hr p hp, hl _ (by simp only [Txt.lits, List.mem_cons, List.mem_map]; exact Or.inr ⟨p, hp, rfl⟩)⟩

theorem text_spec (q : Option UInt8) (hq : q ≠ some ch%'&') (t : Txt) (hl : ∀ l ∈ t.lits, IsXmlText l ∧ Lit q l) (hr : ∀ p ∈ t.more, p.1.Ok)
    (r r' : Bytes) (hend : ∀ b0 b1 buf, textL q false b0 b1 buf r = .ok (buf, r')) :
    text q false (t.src ++ r) = .ok (t.value eol, r') := by
  have hm : ∀ p ∈ t.more, p.1.Ok ∧ Lit q p.2 := fun p hp =>
    ⟨hr p hp, (hl _ (by simp only [Txt.lits, List.mem_cons, List.mem_map]; exact Or.inr ⟨p, hp, rfl⟩)).2⟩
  obtain ⟨x, y, e1⟩ := textL_lit q t.first (hl _ (by simp [Txt.lits])).2 0 0 [] (t.more.flatMap (fun p => p.1.src ++ p.2) ++ r)
  obtain ⟨x', y', e2⟩ := textL_txt q hq t.more hm x y ([] ++ eolFrom 0 t.first) r
  rw [e2, hend, eolFrom_zero, List.nil_append] at e1
  unfold textL at e1
  unfold text Txt.src
  rw [List.append_assoc, e1]
  dsimp only
  have := (checkChars_none _).2 (xmlText_value t (fun l hl' => (hl l hl').1) hr)
  unfold Txt.value at this ⊢
  rw [this]

/-- The text that follows is not taken into account. -/
theorem text_content (t : Txt) (h : t.InContent) (hgt : ∀ l ∈ t.lits, ch%'>' ∉ l) (r : Bytes) (hr : EndsText r) :
    text none false (t.src ++ r) = .ok (t.value eol, r) := by
  refine text_spec none (by simp) t (fun l hl => ⟨(h.2.1 l hl).1, fun b hb => ?_⟩) h.2.2 r r ?_
  · have := (h.2.1 l hl).2.1 b hb
    exact ⟨this.1, this.2, fun _ e => hgt l hl (e ▸ hb), by simp⟩
  · intro b0 b1 buf
    rcases hr with rfl | ⟨r', rfl⟩
    · exact textL_nil ..
    · exact textL_lt ..

theorem text_quoted (q : UInt8) (hq : q = ch%'"' ∨ q = ch%'\'') (t : Txt) (h : t.InQuotes q) (r : Bytes) :
    text (some q) false (t.src ++ q :: r) = .ok (t.value eol, r) := by
  refine text_spec (some q) ?_ t (fun l hl => ⟨(h.1 l hl).1, fun b hb => ?_⟩) h.2 (q :: r) r ?_
  · rcases hq with rfl | rfl <;> decide
  · have := (h.1 l hl).2 b hb
    exact ⟨this.1, this.2.1, by simp, by simpa using fun e => this.2.2 e.symm⟩
  · intro b0 b1 buf
    exact textL_quote q hq b0 b1 buf r

theorem value_usual (t : Txt) (h : ∀ l ∈ t.lits, ∀ b ∈ l, b ≠ ch%'\t' ∧ b ≠ ch%'\n' ∧ b ≠ ch%'\r') :
    (t.value fun l => spaces (eol l)) = t.value eol := by
  have key : ∀ l : Bytes, (∀ b ∈ l, b ≠ ch%'\t' ∧ b ≠ ch%'\n' ∧ b ≠ ch%'\r') → spaces (eol l) = eol l := by
    intro l hl
    have : eol l = l := by
      rw [← eolFrom_zero]
      have : ∀ (l : Bytes) (b1 : UInt8), (∀ b ∈ l, b ≠ ch%'\t' ∧ b ≠ ch%'\n' ∧ b ≠ ch%'\r') → eolFrom b1 l = l := by
        intro l
        induction l with
        | nil => intro _ _; rfl
        | cons b l ih =>
          intro b1 h
          have hb := h b (by simp)
          rw [eolFrom, ih b fun c hc => h c (by simp [hc]), putByte, if_neg hb.2.2, if_neg fun h => hb.2.1 h.2]
          rfl
      exact this l 0 hl
    rw [this]
    unfold spaces
    conv => rhs; rw [← List.map_id l]
    refine List.map_congr_left fun b hb => ?_
    have := hl b hb
    rw [if_neg (by simp [this.1, this.2.1])]
    rfl
  unfold Txt.value
  dsimp only
  rw [key _ (h _ (by simp [Txt.lits]))]
  congr 1
  refine flatMap_congr _ _ _ fun p hp => ?_
  rw [key _ (h _ (by simp only [Txt.lits, List.mem_cons, List.mem_map]; exact Or.inr ⟨p, hp, rfl⟩))]

/-! ### CDATA sections -/

theorem textL_cdata : ∀ (s : Bytes) (b0 b1 : UInt8) (buf r : Bytes), ¬ (b!"]]>") <:+: ([b0, b1] ++ s) →
    textL none true b0 b1 buf (s ++ (b!"]]>" ++ r)) = .ok (buf ++ eolFrom b1 s, r)
  | [], b0, b1, buf, r, _ => by
    unfold textL
    rw [List.nil_append, show (b!"]]>" ++ r) = ch%']' :: ch%']' :: ch%'>' :: r from rfl]
    simp only [List.length_cons]
    have hp : ∀ b1, putByte b1 (ch%']') = [ch%']'] := by
      intro b1; unfold putByte; rw [if_neg (by decide), if_neg (fun h => absurd h.2 (by decide))]
    rw [textLoop, if_neg (fun h => absurd h.2.2.2 (by decide)), if_neg (by decide), if_neg (by decide), if_neg (by decide), if_neg (by decide),
      textLoop, if_neg (fun h => absurd h.2.2.2 (by decide)), if_neg (by decide), if_neg (by decide), if_neg (by decide), if_neg (by decide),
      textLoop, if_pos (by decide), if_pos rfl, hp, hp]
    simp [eolFrom]
  | b :: s, b0, b1, buf, r, h => by
    have ih := textL_cdata s b1 b (buf ++ putByte b1 b) r (fun hc => h (by
      rw [show [b0, b1] ++ b :: s = b0 :: ([b1, b] ++ s) from rfl]
      exact hc.trans (List.suffix_cons ..).isInfix))
    rw [eolFrom, ← List.append_assoc buf, ← ih]
    generalize (b!"]]>" ++ r) = u
    unfold textL
    rw [show (b :: s ++ u).length + 1 = ((s ++ u).length + 1) + 1 from rfl, List.cons_append]
    conv => lhs; simp only [textLoop]
    rw [if_neg, if_neg (by simp), if_neg (by simp), if_neg (by simp), if_neg (by simp)]
    rintro ⟨_, rfl, rfl, rfl⟩
    exact h ⟨[], s, rfl⟩

theorem infix_cons_ne {α : Type} {x y : α} {p s : List α} (hne : x ≠ y) (h : (x :: p) <:+: (y :: s)) : (x :: p) <:+: s := by
  rcases List.infix_cons_iff.1 h with h | h
  · rw [List.cons_prefix_cons] at h
    exact absurd h.1 hne
  · exact h

theorem text_cdata (b r : Bytes) (hx : IsXmlText b) (h : ¬ (b!"]]>") <:+: b) : text none true (b ++ (b!"]]>" ++ r)) = .ok (eol b, r) := by
  have := textL_cdata b 0 0 [] r (fun hc => h (infix_cons_ne (by decide) (infix_cons_ne (by decide) hc)))
  rw [List.nil_append, eolFrom_zero] at this
  unfold textL at this
  unfold text
  rw [this]
  dsimp only
  rw [(checkChars_none _).2 (xmlText_eol hx)]

theorem rawToken_cdata (b r : Bytes) (h : (Node.cdata b).Ok) : rawToken ⟨(Node.cdata b).src ++ r, none⟩ = .ok (.charData (eol b), ⟨r, none⟩) := by
  simp only [Node.Ok] at h
  have e : (Node.cdata b).src ++ r = ch%'<' :: ch%'!' :: ch%'[' :: (b!"CDATA[" ++ (b ++ (b!"]]>" ++ r))) := by
    simp [Node.src]
  unfold rawToken
  simp only [e]
  rw [if_neg (by simp), if_neg (by decide), if_neg (by decide), if_pos trivial]
  have hc : cdataOpen (b!"CDATA[") (b!"CDATA[" ++ (b ++ (b!"]]>" ++ r))) = .ok (b ++ (b!"]]>" ++ r)) := rfl
  unfold bangTag
  dsimp only
  rw [if_neg (by decide), if_pos rfl, hc]
  dsimp only
  rw [text_cdata b r h.1 h.2]

/-! ### Comments and processing instructions -/

theorem commentLoop_spec : ∀ (s : Bytes) (b0 b1 : UInt8) (buf r : Bytes), ¬ (b!"--") <:+: ([b0, b1] ++ s) → ¬ (b!"-") <:+ ([b0, b1] ++ s) →
    commentLoop b0 b1 buf (s ++ (b!"-->" ++ r)) = .ok (buf ++ s, r)
  | [], b0, b1, buf, r, h, h' => by
    rw [List.nil_append, show (b!"-->" ++ r) = ch%'-' :: ch%'-' :: ch%'>' :: r from rfl]
    have h1 : b1 ≠ ch%'-' := by rintro rfl; exact h' ⟨[b0], rfl⟩
    rw [commentLoop, if_neg (fun h => h1 h.2), commentLoop, if_neg (fun h => h1 h.1), commentLoop, if_pos ⟨rfl, rfl⟩, if_neg (by simp)]
    simp
  | b :: s, b0, b1, buf, r, h, h' => by
    have e : [b0, b1] ++ b :: s = b0 :: ([b1, b] ++ s) := rfl
    have ih := commentLoop_spec s b1 b (buf ++ [b]) r (fun hc => h (by
      rw [e]; exact hc.trans (List.suffix_cons ..).isInfix)) (fun hc => h' (by
      rw [e]; exact hc.trans (List.suffix_cons ..)))
    rw [List.cons_append, commentLoop, if_neg, ih]
    · simp
    · rintro ⟨rfl, rfl⟩
      exact h ⟨[], b :: s, rfl⟩

theorem suffix_cons_ne {α : Type} {x y : α} {s : List α} (hne : x ≠ y) (h : [x] <:+ (y :: s)) : [x] <:+ s := by
  rcases List.suffix_cons_iff.1 h with h | h
  · injection h with h _; exact absurd h hne
  · exact h

theorem rawToken_comment (b r : Bytes) (h : (Node.comment b).Ok) : rawToken ⟨(Node.comment b).src ++ r, none⟩ = .ok (.comment b, ⟨r, none⟩) := by
  simp only [Node.Ok] at h
  have e : (Node.comment b).src ++ r = ch%'<' :: ch%'!' :: ch%'-' :: ch%'-' :: (b ++ (b!"-->" ++ r)) := by
    simp [Node.src]
  unfold rawToken
  simp only [e]
  rw [if_neg (by simp), if_neg (by decide), if_neg (by decide), if_pos trivial]
  unfold bangTag
  dsimp only
  rw [if_pos rfl]
  rw [if_neg (by simp), commentLoop_spec b 0 0 [] r (fun hc => h.1 (infix_cons_ne (by decide) (infix_cons_ne (by decide) hc)))
    (fun hc => h.2 (suffix_cons_ne (by decide) (suffix_cons_ne (by decide) hc)))]
  rfl

theorem piLoop_spec : ∀ (s : Bytes) (b0 : UInt8) (buf r : Bytes), ¬ (b!"?>") <:+: (b0 :: s) →
    piLoop b0 buf (s ++ (b!"?>" ++ r)) = .ok (buf ++ s, r)
  | [], b0, buf, r, h => by
    rw [List.nil_append, show (b!"?>" ++ r) = ch%'?' :: ch%'>' :: r from rfl, piLoop, if_neg (fun h => absurd h.2 (by decide)), piLoop,
      if_pos ⟨rfl, rfl⟩]
    simp
  | b :: s, b0, buf, r, h => by
    have ih := piLoop_spec s b (buf ++ [b]) r (fun hc => h (hc.trans (List.suffix_cons ..).isInfix))
    rw [List.cons_append, piLoop, if_neg, ih]
    · simp
    · rintro ⟨rfl, rfl⟩
      exact h ⟨[], s, rfl⟩

theorem isS_space (b : UInt8) : IsS [b] ↔ isSpace b = true := by
  unfold IsS isSpace
  simp [or_assoc]
  tauto

theorem isS_mem {s : Bytes} (h : IsS s) : ∀ b ∈ s, isSpace b = true := fun b hb => (isS_space b).1 (by
  intro x hx; simp at hx; subst hx; exact h x hb)

theorem skipSpace_s {s : Bytes} (h : IsS s) (r : Bytes) : skipSpace (s ++ r) = skipSpace r :=
  List.dropWhile_append_of_pos (isS_mem h)

theorem space_not (b : UInt8) (h : isSpace b = true) : nameOrHigh b = false := by
  have : ∀ n : Fin 256, isSpace (UInt8.ofNat n.val) = true → nameOrHigh (UInt8.ofNat n.val) = false := by decide +kernel
  have := this ⟨b.toNat, b.toNat_lt⟩
  simp only [UInt8.ofNat_toNat] at this
  exact this h

/-- White space followed by something that does not begin with a name. -/
theorem s_head {s : Bytes} (h : IsS s) (b : UInt8) (r : Bytes) (hb : nameOrHigh b = false) : ∃ c t, s ++ b :: r = c :: t ∧ nameOrHigh c = false := by
  cases s with
  | nil => exact ⟨b, r, rfl, hb⟩
  | cons c s => exact ⟨c, s ++ b :: r, rfl, space_not c (isS_mem h c (by simp))⟩

theorem readXmlName_spec (nm : Bytes) (b : UInt8) (r : Bytes) (h : isName nm = true) (hb : nameOrHigh b = false) :
    readXmlName (nm ++ b :: r) = .ok (some (nm, b :: r)) := by
  unfold readXmlName
  rw [readName_append nm r b (isName_bytes h) hb]
  cases nm with
  | nil => exact absurd rfl (isName_ne h)
  | cons c q => dsimp only; rw [if_pos h]

theorem rawToken_pi (t gap d r : Bytes) (h : (Node.pi t gap d).Ok) :
    rawToken ⟨(Node.pi t gap d).src ++ r, none⟩ = .ok (.procInst t d, ⟨r, none⟩) := by
  simp only [Node.Ok] at h
  obtain ⟨h1, h2, h3, h4, h5, h6⟩ := h
  have e : (Node.pi t gap d).src ++ r = ch%'<' :: ch%'?' :: (t ++ (gap ++ (d ++ (b!"?>" ++ r)))) := by
    simp [Node.src]
  unfold rawToken
  simp only [e]
  rw [if_neg (by simp), if_neg (by decide), if_pos trivial]
  unfold piTag
  have hh : ∃ c u, gap ++ (d ++ (b!"?>" ++ r)) = c :: u ∧ nameOrHigh c = false := by
    cases gap with
    | nil => rw [h4 rfl]; exact ⟨ch%'?', ch%'>' :: r, rfl, by decide⟩
    | cons c s => exact ⟨c, _, rfl, space_not c (isS_mem h3 c (by simp))⟩
  obtain ⟨c, u, hc, hn⟩ := hh
  have hk : skipSpace (gap ++ (d ++ (b!"?>" ++ r))) = d ++ (b!"?>" ++ r) := by
    rw [skipSpace_s h3]
    cases d with
    | nil => exact skipSpace_cons _ _ (by decide)
    | cons b d =>
      refine skipSpace_cons _ _ ?_
      have := h6 b d rfl
      rw [isS_space] at this
      simpa using this
  rw [hc, readXmlName_spec t c u h1 hn, ← hc]
  dsimp only
  rw [hk, piLoop_spec d 0 [] r (fun hc => h5 (infix_cons_ne (by decide) hc))]
  dsimp only
  unfold checkXmlDecl
  rw [if_neg h2]
  rfl

/-! ### Tags -/

theorem written_qname {n : Name} (h : IsQName n) : WrittenName (qname n) n := by
  unfold qname
  obtain ⟨space, loc⟩ := n
  obtain ⟨h1, h2⟩ := h
  dsimp only at h1 h2 ⊢
  split
  · rename_i hs
    subst hs
    exact written_nc h2
  · rename_i hs
    exact written_join (h1.resolve_left hs) h2

theorem attrs_gap (as : List Att) (h : ∀ a ∈ as, a.Ok) (s : Bytes) (hs : ∃ b t, s = b :: t ∧ nameOrHigh b = false) :
    ∃ b t, as.flatMap Att.src ++ s = b :: t ∧ nameOrHigh b = false := by
  cases as with
  | nil => exact hs
  | cons a as =>
    obtain ⟨h1, h2, _⟩ := h a (by simp)
    cases hg : a.gap with
    | nil => exact absurd hg h1
    | cons c g =>
      refine ⟨c, _, by rw [List.flatMap_cons, Att.src, hg]; rfl, space_not c (isS_mem h2 c (by simp [hg]))⟩

theorem readAttr_spec (a : Att) (h : a.Ok) (hu : ∀ l ∈ a.val.lits, ∀ b ∈ l, b ≠ ch%'\t' ∧ b ≠ ch%'\n' ∧ b ≠ ch%'\r') (r : Bytes) :
    readAttr (qname a.name ++ (a.eq1 ++ ch%'=' :: (a.eq2 ++ a.quote :: (a.val.src ++ a.quote :: r)))) = .ok (a.attr, r) := by
  obtain ⟨_, _, h3, h4, h5, h6, h7, _⟩ := h
  unfold readAttr
  obtain ⟨c, u, hc, hn⟩ := s_head h4 (ch%'=') (a.eq2 ++ a.quote :: (a.val.src ++ a.quote :: r)) (by decide)
  rw [hc, nsname_written (written_qname h3) c u hn, ← hc]
  dsimp only
  rw [skipSpace_s h4, skipSpace_cons _ _ (by decide)]
  dsimp only
  rw [if_neg (by simp), skipSpace_s h5, skipSpace_cons _ _ (by rcases h6 with h | h <;> rw [h] <;> decide)]
  unfold attrval
  dsimp only
  rw [if_pos h6, text_quoted a.quote h6 a.val h7 r]
  dsimp only
  unfold Att.attr
  rw [value_usual a.val hu]

theorem attrLoop_spec (as : List Att) (h : ∀ a ∈ as, a.Ok)
    (hu : ∀ a ∈ as, ∀ l ∈ a.val.lits, ∀ b ∈ l, b ≠ ch%'\t' ∧ b ≠ ch%'\n' ∧ b ≠ ch%'\r') (gap : Bytes) (hg : IsS gap) (empty : Bool) (n : Nat)
    (hn : as.length < n) (acc : List Attr) (r : Bytes) :
    attrLoop n acc (as.flatMap Att.src ++ (gap ++ ((if empty then b!"/>" else b!">") ++ r))) = .ok (acc ++ as.map Att.attr, empty, r) := by
  induction as generalizing n acc with
  | nil =>
    cases n with
    | zero => simp at hn
    | succ n =>
      simp only [List.flatMap_nil, List.nil_append, attrLoop]
      rw [skipSpace_s hg]
      cases empty with
      | true =>
        rw [show (if true = true then b!"/>" else b!">") ++ r = ch%'/' :: ch%'>' :: r from rfl, skipSpace_cons _ _ (by decide)]
        dsimp only
        rw [if_pos rfl]
        simp
      | false =>
        rw [show (if false = true then b!"/>" else b!">") ++ r = ch%'>' :: r from rfl, skipSpace_cons _ _ (by decide)]
        dsimp only
        rw [if_neg (by decide), if_pos rfl]
        simp
  | cons a as ih =>
    cases n with
    | zero => simp at hn
    | succ n =>
      have ha := h a (by simp)
      obtain ⟨b, t, hbt, hb⟩ := isName_head (written_qname ha.2.2.1).1
      have hnb := nameByte_not b hb
      have hr := readAttr_spec a ha (hu a (by simp)) (as.flatMap Att.src ++ (gap ++ ((if empty then b!"/>" else b!">") ++ r)))
      have e : (a :: as).flatMap Att.src ++ (gap ++ ((if empty then b!"/>" else b!">") ++ r)) = a.gap ++ (qname a.name ++ (a.eq1 ++ ch%'=' ::
          (a.eq2 ++ a.quote :: (a.val.src ++ a.quote :: (as.flatMap Att.src ++ (gap ++ ((if empty then b!"/>" else b!">") ++ r))))))) := by
        simp [Att.src]
      rw [attrLoop, e, skipSpace_s ha.2.1]
      rw [hbt] at hr ⊢
      simp only [List.cons_append] at hr ⊢
      rw [skipSpace_cons _ _ hnb.1]
      dsimp only
      rw [if_neg hnb.2.1, if_neg hnb.2.2.1, hr]
      dsimp only
      rw [ih (fun x hx => h x (by simp [hx])) (fun x hx => hu x (by simp [hx])) n (by simp at hn; omega)]
      simp

theorem atts_length (as : List Att) (h : ∀ a ∈ as, a.Ok) : as.length ≤ (as.flatMap Att.src).length := by
  induction as with
  | nil => simp
  | cons a as ih =>
    rw [List.flatMap_cons, List.length_append, List.length_cons]
    have := ih fun x hx => h x (by simp [hx])
    have : 1 ≤ a.src.length := by unfold Att.src; simp; omega
    omega

theorem rawToken_startTag (n : Name) (as : List Att) (gap : Bytes) (empty : Bool) (hn : IsQName n) (h : ∀ a ∈ as, a.Ok)
    (hu : ∀ a ∈ as, ∀ l ∈ a.val.lits, ∀ b ∈ l, b ≠ ch%'\t' ∧ b ≠ ch%'\n' ∧ b ≠ ch%'\r') (hg : IsS gap) (r : Bytes) :
    rawToken ⟨ch%'<' :: (qname n ++ (as.flatMap Att.src ++ (gap ++ ((if empty then b!"/>" else b!">") ++ r)))), none⟩ =
      .ok (.startElement n (as.map Att.attr), ⟨r, if empty then some n else none⟩) := by
  obtain ⟨b, t, hbt, hb⟩ := isName_head (written_qname hn).1
  have hnb := nameByte_not b hb
  obtain ⟨c, u, hc, hcn⟩ := attrs_gap as h (gap ++ ((if empty then b!"/>" else b!">") ++ r)) (by
    cases empty with
    | true => exact s_head hg (ch%'/') (ch%'>' :: r) (by decide)
    | false => exact s_head hg (ch%'>') r (by decide))
  have hns := nsname_written (written_qname hn) c u hcn
  rw [← hc] at hns
  unfold rawToken
  dsimp only
  rw [if_neg (by simp)]
  have hst : startTag (qname n ++ (as.flatMap Att.src ++ (gap ++ ((if empty then b!"/>" else b!">") ++ r)))) =
      .ok (.startElement n (as.map Att.attr), ⟨r, if empty then some n else none⟩) := by
    unfold startTag
    rw [hns]
    dsimp only
    rw [attrLoop_spec as h hu gap hg empty _ (by
      have := atts_length as h
      simp only [List.length_append]; omega)]
    simp
  rw [hbt] at hst ⊢
  simp only [List.cons_append] at hst ⊢
  rw [if_neg hnb.2.1, if_neg hnb.2.2.2.1, if_neg hnb.2.2.2.2, hst]

theorem rawToken_endTag (n : Name) (gap : Bytes) (hn : IsQName n) (hg : IsS gap) (r : Bytes) :
    rawToken ⟨b!"</" ++ (qname n ++ (gap ++ (b!">" ++ r))), none⟩ = .ok (.endElement n, ⟨r, none⟩) := by
  unfold rawToken
  rw [show b!"</" ++ (qname n ++ (gap ++ (b!">" ++ r))) = ch%'<' :: ch%'/' :: (qname n ++ (gap ++ ch%'>' :: r)) from rfl]
  dsimp only
  rw [if_neg (by simp), if_pos rfl]
  unfold endTag
  obtain ⟨c, u, hc, hcn⟩ := s_head hg (ch%'>') r (by decide)
  rw [hc, nsname_written (written_qname hn) c u hcn, ← hc]
  dsimp only
  rw [skipSpace_s hg, skipSpace_cons _ _ (by decide)]
  simp

theorem text_head (t : Txt) (h : t.InContent) (hgt : ∀ l ∈ t.lits, ch%'>' ∉ l) : ∃ b s, t.src = b :: s ∧ b ≠ ch%'<' ∧ b ≠ ch%'>' := by
  obtain ⟨h1, h2, h3⟩ := h
  unfold Txt.src at h1 ⊢
  cases hf : t.first with
  | cons b s =>
    refine ⟨b, _, rfl, ?_, ?_⟩
    · exact ((h2 t.first (by simp [Txt.lits])).2.1 b (by simp [hf])).1
    · rintro rfl; exact hgt t.first (by simp [Txt.lits]) (by simp [hf])
  | nil =>
    cases hm : t.more with
    | nil => rw [hf, hm] at h1; exact absurd rfl h1
    | cons p m =>
      obtain ⟨s, e, _⟩ := entityRef_spec p.1 (h3 p (by simp [hm])) (p.2 ++ m.flatMap fun p => p.1.src ++ p.2)
      refine ⟨ch%'&', s, ?_, by decide, by decide⟩
      rw [List.flatMap_cons, List.nil_append, List.append_assoc, e]

theorem rawToken_txt (t : Txt) (h : t.InContent) (hgt : ∀ l ∈ t.lits, ch%'>' ∉ l) (r : Bytes) (hr : EndsText r) :
    rawToken ⟨t.src ++ r, none⟩ = .ok (.charData (t.value eol), ⟨r, none⟩) := by
  obtain ⟨b, s, e, hb, _⟩ := text_head t h hgt
  have ht := text_content t h hgt r hr
  unfold rawToken
  rw [e] at ht ⊢
  simp only [List.cons_append] at ht ⊢
  rw [if_pos hb, ht]

end Verif.Grammar
