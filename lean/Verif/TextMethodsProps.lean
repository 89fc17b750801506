import Verif.TextMethods
import Verif.EncTokStream
import Verif.KRfl

/-!
C78: a text method is given the text of its element, all of it and nothing else.
-/
namespace Verif.TextMethods

open Verif.Xml Verif.EncTok

/-! ### Specification -/

/-- `Body l b`: `l` is the content of an element, and `b` is its text without that of its children. -/
inductive Body : List Token → Bytes → Prop where
  | nil : Body [] []
  | text (b : Bytes) (l : List Token) (t : Bytes) : Body l t → Body (.charData b :: l) (b ++ t)
  | comment (b : Bytes) (l : List Token) (t : Bytes) : Body l t → Body (.comment b :: l) t
  | inst (a b : Bytes) (l : List Token) (t : Bytes) : Body l t → Body (.procInst a b :: l) t
  | directive (b : Bytes) (l : List Token) (t : Bytes) : Body l t → Body (.directive b :: l) t
  | child (n m : Name) (attrs : List Attr) (k l : List Token) (u t : Bytes) : Body k u → Body l t →
      Body (.startElement n attrs :: (k ++ .endElement m :: l)) t

/-! ### Reading -/

/-- Content at any depth. -/
theorem read_body {l : List Token} {t : Bytes} (h : Body l t) (fin : XErr) (r : List Token) (d : Nat) (buf : Bytes) :
    readText fin (l ++ r) (d + 1) buf = readText fin r (d + 1) (if d = 0 then buf ++ t else buf) := by
  induction h generalizing r d buf with
  | nil =>
    rw [List.nil_append, List.append_nil]
    split <;> rfl
  | text b l t h ih =>
    rw [List.cons_append, readText, ih]
    by_cases hd : d = 0
    · rw [if_pos hd, if_pos hd, if_pos (by omega), List.append_assoc]
    · rw [if_neg hd, if_neg hd, if_neg (by omega)]
  | comment b l t h ih => rw [List.cons_append, readText, ih] <;> simp
  | inst a b l t h ih => rw [List.cons_append, readText, ih] <;> simp
  | directive b l t h ih => rw [List.cons_append, readText, ih] <;> simp
  | child n m attrs k l u t hk hl ihk ihl =>
    rw [List.cons_append, readText, List.append_assoc, ihk, if_neg (by omega), List.cons_append, readText, ihl]

/-- What the loop has read, at any depth: the contents of the elements that are open, each with its end. -/
theorem body_of (fin : XErr) : ∀ (l : List Token) (d : Nat) (buf b : Bytes) (r : List Token), readText fin l (d + 1) buf = .ok (b, r) →
    ∃ k m r1 t, l = k ++ .endElement m :: r1 ∧ Body k t ∧ readText fin r1 d (if d = 0 then buf ++ t else buf) = .ok (b, r)
  | [], _, _, _, _, h => by cases h
  | .charData c :: l, d, buf, b, r, h => by
    rw [readText] at h
    obtain ⟨k, m, r1, t, h1, h2, h3⟩ := body_of fin l d _ b r h
    refine ⟨.charData c :: k, m, r1, c ++ t, by rw [h1]; rfl, .text c k t h2, ?_⟩
    by_cases hd : d = 0
    · rw [if_pos hd, if_pos (by omega)] at h3
      rw [if_pos hd, ← List.append_assoc]
      exact h3
    · rw [if_neg hd, if_neg (by omega)] at h3
      rw [if_neg hd]
      exact h3
  | .comment c :: l, d, buf, b, r, h => by
    obtain ⟨k, m, r1, t, h1, h2, h3⟩ := body_of fin l d buf b r (by rw [readText] at h <;> simp_all)
    exact ⟨.comment c :: k, m, r1, t, by rw [h1]; rfl, .comment c k t h2, h3⟩
  | .procInst a c :: l, d, buf, b, r, h => by
    obtain ⟨k, m, r1, t, h1, h2, h3⟩ := body_of fin l d buf b r (by rw [readText] at h <;> simp_all)
    exact ⟨.procInst a c :: k, m, r1, t, by rw [h1]; rfl, .inst a c k t h2, h3⟩
  | .directive c :: l, d, buf, b, r, h => by
    obtain ⟨k, m, r1, t, h1, h2, h3⟩ := body_of fin l d buf b r (by rw [readText] at h <;> simp_all)
    exact ⟨.directive c :: k, m, r1, t, by rw [h1]; rfl, .directive c k t h2, h3⟩
  | .endElement m :: l, d, buf, b, r, h => by
    rw [readText] at h
    refine ⟨[], m, l, [], rfl, .nil, ?_⟩
    rw [List.append_nil]
    split <;> exact h
  | .startElement n attrs :: l, d, buf, b, r, h => by
    rw [readText] at h
    obtain ⟨k, m, r1, t, h1, h2, h3⟩ := body_of fin l (d + 1) _ b r h
    rw [if_neg (by omega)] at h3
    have hlt : r1.length < l.length + 1 := by rw [h1]; simp; omega
    obtain ⟨k', m', r2, t', g1, g2, g3⟩ := body_of fin r1 d _ b r h3
    refine ⟨.startElement n attrs :: (k ++ .endElement m :: k'), m', r2, t', by rw [h1, g1]; simp, .child n m attrs k k' t t' h2 g2, g3⟩
termination_by l => l.length
decreasing_by all_goals simp_wf
              all_goals omega

/-- C78: `UnmarshalText` is called with `b`, and `r` is left to be read, exactly if the tokens are the content of the element with the text `b`, its end, and `r`. -/
theorem C78_read (l : List Token) (fin : XErr) (b : Bytes) (r : List Token) :
    unmarshalText l fin = .ok (b, r) ↔ ∃ k m, l = k ++ .endElement m :: r ∧ Body k b := by
  constructor
  · intro h
    obtain ⟨k, m, r1, t, h1, h2, h3⟩ := body_of fin l 0 [] b r h
    rw [if_pos rfl, List.nil_append, readText] at h3
    injection h3 with h3
    injection h3 with h3 h4
    subst h3
    subst h4
    exact ⟨k, m, h1, h2⟩
  · rintro ⟨k, m, rfl, h⟩
    unfold unmarshalText
    rw [read_body h, readText, readText]
    rfl

/-- C78: it fails only with the error of the decoder, and only if the element does not end. -/
theorem C78_fails (l : List Token) (fin e : XErr) (h : unmarshalText l fin = .error e) :
    e = fin ∧ ¬ ∃ k m r b, l = k ++ .endElement m :: r ∧ Body k b := by
  constructor
  · unfold unmarshalText at h
    revert h
    generalize 1 = d
    generalize ([] : Bytes) = buf
    induction l generalizing d buf with
    | nil =>
      intro h
      cases d with
      | zero => cases h
      | succ d => injection h with h; exact h.symm
    | cons t l ih =>
      intro h
      cases d with
      | zero => cases t <;> cases h
      | succ d =>
        cases t <;> (rw [readText] at h <;> first | exact ih _ _ h | simp)
  · rintro ⟨k, m, r, b, h1, h2⟩
    rw [(C78_read l fin b r).2 ⟨k, m, h1, h2⟩] at h
    cases h

/-! ### Writing and reading back -/

theorem marshalText_eq (p : Printer) (n : Name) (attrs : List Attr) (t : Bytes) (buffered : Bytes → Bool) (p' : Printer) (doc : Bytes)
    (h : encodeTokens buffered p [] ([.startElement n attrs] ++ (if t = [] then [] else [.charData t]) ++ [.endElement n]) = .ok (p', doc)) :
    marshalText p n attrs (some t) = .ok (p', doc) := by
  unfold marshalText
  simp only [List.cons_append, List.nil_append, encodeTokens, encodeToken, written] at h
  cases hs : writeStart p n attrs with
  | error e => rw [hs] at h; cases h
  | ok r =>
    obtain ⟨p1, o1⟩ := r
    rw [hs] at h
    dsimp only at h ⊢
    by_cases ht : t = []
    · subst ht
      simp only [if_true, List.nil_append, encodeTokens, encodeToken, written] at h
      cases he : writeEnd p1 n with
      | error e => rw [he] at h; cases h
      | ok r =>
        obtain ⟨p2, o2⟩ := r
        rw [he] at h
        simp only [Except.ok.injEq, Prod.mk.injEq] at h
        rw [← h.1, ← h.2]
        simp [show escapeText false [] = [] from rfl]
    · rw [if_neg ht] at h
      simp only [List.cons_append, List.nil_append, encodeTokens, encodeToken, written] at h
      cases he : writeEnd p1 n with
      | error e => rw [he] at h; cases h
      | ok r =>
        obtain ⟨p2, o2⟩ := r
        rw [he] at h
        simp only [Except.ok.injEq, Prod.mk.injEq] at h
        rw [← h.1, ← h.2]

/-- C78: what `MarshalText` returns is what `UnmarshalText` gets back, for every text of characters that XML allows. -/
theorem C78_roundtrip (n : Name) (attrs : List Attr) (t : Bytes) (hp : PlainTok (.startElement n attrs)) (ht : clean t = t) :
    ∃ p doc, marshalText (Printer.new [] []) n attrs (some t) = .ok (p, doc) ∧ closeOk p = true ∧
      ∀ k, 3 < k → ∃ l, tokRun k (Dec.new doc) = (.startElement n attrs :: l, some .eof) ∧ unmarshalText l .eof = .ok (t, []) := by
  have hts : ∀ x ∈ ([.startElement n attrs] ++ (if t = [] then [] else [.charData t]) ++ [.endElement n] : List Token), PlainTok x := by
    intro x hx
    simp only [List.mem_append, List.mem_cons, List.not_mem_nil, or_false] at hx
    rcases hx with (rfl | hx) | rfl
    · exact hp
    · split at hx
      · cases hx
      · rename_i h0
        rw [List.mem_singleton] at hx
        subst hx
        exact ⟨h0, ht⟩
    · exact ⟨hp.1, hp.2.1⟩
  obtain ⟨p, doc, h1, h2, h3⟩ := C63_exact (fun b => decide (b ≠ [])) rfl _ hts (by split <;> simp [TextApart]) (by split <;> simp [nesting])
  refine ⟨p, doc, marshalText_eq _ n attrs t _ p doc h1, h2, fun k hk => ⟨_, h3 k (by split <;> simp <;> omega), ?_⟩⟩
  rw [C78_read]
  refine ⟨if t = [] then [] else [.charData t], n, rfl, ?_⟩
  split
  · rename_i h0
    rw [h0]
    exact .nil
  · have := Body.text t [] [] .nil
    rw [List.append_nil] at this
    exact this

/-- C78 does not hold of text with characters that XML does not allow: they come back as U+FFFD. -/
theorem C78_refuted : (marshalText (Printer.new [] []) ⟨[], b!"a"⟩ [] (some [1])).map (fun x => x.2) = .ok (b!"<a>" ++ [0xEF, 0xBF, 0xBD] ++ b!"</a>") ∧
    unmarshalText [.charData ([0xEF, 0xBF, 0xBD]), .endElement ⟨[], b!"a"⟩] .eof = .ok ([0xEF, 0xBF, 0xBD], []) := by
  constructor <;> decide +kernel

/-- Text around a child and a comment. -/
example : unmarshalText [.charData b!"x", .startElement ⟨[], b!"b"⟩ [], .charData b!"no", .endElement ⟨[], b!"b"⟩, .comment b!"c", .charData b!"y",
    .endElement ⟨[], b!"a"⟩, .charData b!"z"] .eof = .ok (b!"xy", [.charData b!"z"]) := by
  decide +kernel

/-- A text with markup and line ends. -/
example : PlainTok (.startElement ⟨[], b!"a"⟩ []) ∧ clean b!"<&\r\n ]]>" = b!"<&\r\n ]]>" := by
  refine ⟨⟨rfl, ?_, by decide, by simp⟩, by decide +kernel⟩
  unfold NCName
  decide +kernel

end Verif.TextMethods
