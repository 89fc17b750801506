import Verif.EncTok
import Verif.GrammarDecl
import Verif.Local

/-!
C62: comments, processing instructions and directives written with `EncodeToken`, and what the decoder makes of them.
-/
namespace Verif.EncTok

open Verif.Xml Verif.Utf8 Verif.Grammar

/-! ### Specification -/

/-- The text of a directive with `k` angle brackets open: outside of quoted strings the brackets match, and no comment
begins. -/
inductive DirText : Nat → Bytes → Prop where
  | nil : DirText 0 []
  | plain {k : Nat} {b : UInt8} {s : Bytes} : plainByte b = true → DirText k s → DirText k (b :: s)
  | quoted {k : Nat} {q : UInt8} {t s : Bytes} : q = ch%'\'' ∨ q = ch%'"' → q ∉ t → DirText k s → DirText k (q :: (t ++ q :: s))
  | open {k : Nat} {s : Bytes} : ¬ (b!"!--") <+: s → DirText (k + 1) s → DirText k (ch%'<' :: s)
  | close {k : Nat} {s : Bytes} : DirText k s → DirText (k + 1) (ch%'>' :: s)

/-! ### Searching -/

theorem index_none : ∀ (s p : Bytes), index s p = none ↔ ¬ p <:+: s
  | [], p => by
    unfold index
    by_cases h : p = []
    · subst h; simp
    · rw [if_neg h]; simp [h]
  | b :: t, p => by
    unfold index
    rw [List.infix_cons_iff, ← List.isPrefixOf_iff_prefix]
    by_cases h : p.isPrefixOf (b :: t) = true
    · rw [if_pos h]; simp [h]
    · rw [if_neg h, Option.map_eq_none_iff, index_none t p]; simp [h]

theorem contains_iff (s p : Bytes) : contains s p = true ↔ p <:+: s := by
  unfold contains
  rw [Option.isSome_iff_ne_none, ne_eq, index_none, Classical.not_not]

/-! ### Comments -/

theorem commentLoop_bad : ∀ (s : Bytes) (b0 b1 : UInt8) (buf d r : Bytes), (b!"--") <:+: ([b0, b1] ++ s ++ [ch%'-']) →
    commentLoop b0 b1 buf (s ++ (b!"-->" ++ r)) ≠ .ok (d, r)
  | [], b0, b1, buf, d, r, h, e => by
    rw [List.nil_append, show (b!"-->" ++ r) = ch%'-' :: ch%'-' :: ch%'>' :: r from rfl, commentLoop] at e
    by_cases h1 : b0 = ch%'-' ∧ b1 = ch%'-'
    · rw [if_pos h1, if_pos (by decide)] at e; cases e
    · rw [if_neg h1, commentLoop] at e
      have h2 : b1 = ch%'-' := by
        by_contra hne
        simp only [List.append_nil, List.cons_append, List.nil_append] at h
        rcases List.infix_cons_iff.1 h with h | h
        · simp only [List.cons_prefix_cons] at h
          exact h1 ⟨h.1.symm, h.2.1.symm⟩
        · have h := infix_cons_ne (Ne.symm hne) h
          have := h.length_le
          simp at this
      rw [if_pos ⟨h2, rfl⟩, if_pos (by decide)] at e
      cases e
  | c :: s, b0, b1, buf, d, r, h, e => by
    rw [List.cons_append, commentLoop] at e
    by_cases h1 : b0 = ch%'-' ∧ b1 = ch%'-'
    · rw [if_pos h1] at e
      split at e
      · cases e
      · injection e with e
        injection e with _ e
        have := congrArg List.length e
        simp at this
        omega
    · rw [if_neg h1] at e
      refine commentLoop_bad s b1 c _ d r ?_ e
      simp only [List.cons_append, List.nil_append] at h ⊢
      rcases List.infix_cons_iff.1 h with h | h
      · simp only [List.cons_prefix_cons] at h
        exact absurd ⟨h.1.symm, h.2.1.symm⟩ h1
      · exact h

theorem dashes_iff (c : Bytes) : (b!"--") <:+: (c ++ [ch%'-']) ↔ (b!"--") <:+: c ∨ (b!"-") <:+ c := by
  constructor
  · rintro ⟨a, b, h⟩
    rcases List.eq_nil_or_concat b with rfl | ⟨b, x, rfl⟩
    · right
      rw [List.append_nil, show a ++ b!"--" = (a ++ b!"-") ++ [ch%'-'] by simp] at h
      have := List.append_inj_left' h rfl
      exact ⟨a, this⟩
    · left
      rw [List.concat_eq_append, ← List.append_assoc] at h
      exact ⟨a, b, List.append_inj_left' h rfl⟩
  · rintro (h | ⟨a, rfl⟩)
    · exact h.trans (List.prefix_append ..).isInfix
    · exact ⟨a, [], by simp⟩

/-- C62: `EncodeToken` accepts a comment exactly if it does not contain `-->`.  The decoder returns that comment exactly if
there is no `--` in it and it does not end in `-`. -/
theorem C62_comment (buffered : Bool) (p : Printer) (c : Bytes) :
    ((∃ r, encodeToken buffered p (.comment c) = .ok r) ↔ ¬ (b!"-->") <:+: c) ∧
    (∀ p' b, encodeToken buffered p (.comment c) = .ok (p', b) → p' = p ∧
      ∀ r, rawToken ⟨b ++ r, none⟩ = .ok (.comment c, ⟨r, none⟩) ↔ ¬ (b!"--") <:+: c ∧ ¬ (b!"-") <:+ c) := by
  simp only [encodeToken]
  constructor
  · rw [← contains_iff]
    cases contains c (b!"-->") <;> simp
  · intro p' b h
    split at h
    · cases h
    injection h with h
    injection h with h1 h2
    refine ⟨h1.symm, fun r => ⟨fun he => ?_, fun hc => ?_⟩⟩
    · by_contra hn
      have hd : (b!"--") <:+: (c ++ [ch%'-']) := by rw [dashes_iff]; tauto
      subst h2
      have e : (b!"<!--" ++ c ++ b!"-->") ++ r = ch%'<' :: ch%'!' :: ch%'-' :: ch%'-' :: (c ++ (b!"-->" ++ r)) := by simp
      unfold rawToken at he
      simp only [e] at he
      rw [if_neg (by simp), if_neg (by decide), if_neg (by decide), if_pos trivial] at he
      unfold bangTag at he
      dsimp only at he
      rw [if_pos rfl, if_neg (by simp)] at he
      split at he
      · cases he
      · rename_i d r2 hl
        injection he with he
        injection he with _ he
        injection he with he _
        subst he
        refine commentLoop_bad c 0 0 [] d r2 ?_ hl
        rw [List.append_assoc]
        exact hd.trans (List.suffix_append ..).isInfix
    · subst h2
      have := rawToken_comment c r hc
      simpa [Grammar.Node.src] using this

/-- The comment ` a `. -/
example : (∃ r, encodeToken false (Printer.new [] []) (.comment (b!" a ")) = .ok r) ∧ ¬ (b!"--") <:+: (b!" a ") ∧ ¬ (b!"-") <:+ (b!" a ") :=
  ⟨(C62_comment false _ _).1.2 (by decide), by decide, by decide⟩

/-- A comment that `EncodeToken` accepts and the decoder does not. -/
theorem C62_refuted_comment : encodeToken false (Printer.new [] []) (.comment (b!"a--b")) = .ok (Printer.new [] [], b!"<!--a--b-->") ∧
    ∀ r, rawToken ⟨b!"<!--a--b-->" ++ r, none⟩ = .error (.syntaxError "invalid sequence \"--\" not allowed in comments") :=
  ⟨by decide +kernel, fun _ => rfl⟩

/-! ### Processing instructions -/

theorem skipSpace_inst (i r : Bytes) : skipSpace (i ++ (b!"?>" ++ r)) = i.dropWhile isSpace ++ (b!"?>" ++ r) := by
  unfold skipSpace
  induction i with
  | nil => rfl
  | cons b i ih =>
    rw [List.cons_append, List.dropWhile_cons, List.dropWhile_cons]
    split
    · exact ih
    · rfl

/-- C62: `EncodeToken` accepts a processing instruction exactly if its target is a name, its data does not contain `?>`, and
the target is not `xml` while something is in the buffer.  The decoder returns that processing instruction exactly if the data
does not begin with white space and an XML declaration passes its checks. -/
theorem C62_procInst (buffered : Bool) (p : Printer) (t i : Bytes) :
    ((∃ r, encodeToken buffered p (.procInst t i) = .ok r) ↔
      isName t = true ∧ ¬ (b!"?>") <:+: i ∧ (t = b!"xml" → buffered = false)) ∧
    (∀ p' b, encodeToken buffered p (.procInst t i) = .ok (p', b) → p' = p ∧
      ∀ r, rawToken ⟨b ++ r, none⟩ = .ok (.procInst t i, ⟨r, none⟩) ↔
        (∀ c s, i = c :: s → isSpace c = false) ∧ checkXmlDecl t i = none) := by
  simp only [encodeToken]
  constructor
  · rw [← contains_iff]
    by_cases h1 : t = b!"xml" ∧ buffered = true
    · rw [if_pos h1]
      constructor
      · rintro ⟨r, hr⟩; cases hr
      · rintro ⟨_, _, h⟩; rw [h h1.1] at h1; cases h1.2
    · rw [if_neg h1]
      have h2 : t = b!"xml" → buffered = false := fun h => by
        by_contra hb
        exact h1 ⟨h, by simpa using hb⟩
      cases isName t <;> cases contains i (b!"?>") <;> simp
      exact h2
  · intro p' b h
    split at h
    · cases h
    split at h
    · cases h
    rename_i hn
    have hn : isName t = true := by simpa using hn
    split at h
    · cases h
    rename_i hi
    rw [contains_iff] at hi
    injection h with h
    injection h with h1 h2
    subst h2
    refine ⟨h1.symm, fun r => ?_⟩
    have e : (b!"<?" ++ t ++ (if i = [] then [] else ch%' ' :: i) ++ b!"?>") ++ r =
        ch%'<' :: ch%'?' :: (t ++ ((if i = [] then [] else ch%' ' :: i) ++ (b!"?>" ++ r))) := by simp
    unfold rawToken
    simp only [e]
    rw [if_neg (by simp), if_neg (by decide), if_pos trivial]
    unfold piTag
    have hh : ∃ c u, (if i = [] then [] else ch%' ' :: i) ++ (b!"?>" ++ r) = c :: u ∧ nameOrHigh c = false := by
      split
      · exact ⟨ch%'?', _, rfl, by decide⟩
      · exact ⟨ch%' ', _, rfl, by decide⟩
    have hs : skipSpace ((if i = [] then [] else ch%' ' :: i) ++ (b!"?>" ++ r)) = i.dropWhile isSpace ++ (b!"?>" ++ r) := by
      rw [← skipSpace_inst]
      split
      · rename_i h0; rw [h0]
      · exact List.dropWhile_cons_of_pos (by decide)
    obtain ⟨c, u, hc, hnc⟩ := hh
    rw [hc, readXmlName_spec t c u hn hnc, ← hc]
    dsimp only
    rw [hs, piLoop_spec _ 0 [] r (fun hx => hi ((infix_cons_ne (by decide) hx).trans (List.dropWhile_suffix _).isInfix))]
    dsimp only
    rw [List.nil_append]
    have hdw : i.dropWhile isSpace = i ↔ ∀ c s, i = c :: s → isSpace c = false := by
      cases i with
      | nil => simp
      | cons c s =>
        rw [List.dropWhile_cons]
        constructor
        · intro h c' s' he
          injection he with he _
          subst he
          by_contra hx
          rw [if_pos (by simpa using hx)] at h
          have := (List.dropWhile_suffix (p := isSpace) (l := s)).length_le
          rw [h] at this
          simp at this
        · intro h
          rw [if_neg (by simp [h c s rfl])]
    rw [← hdw]
    constructor
    · intro h
      split at h
      · cases h
      · rename_i hx
        injection h with h
        injection h with h _
        injection h with _ h
        rw [h] at hx
        exact ⟨h, hx⟩
    · rintro ⟨h3, h4⟩
      rw [h3, h4]

/-- A style sheet instruction. -/
example : (∃ r, encodeToken true (Printer.new [] []) (.procInst (b!"xml-stylesheet") (b!"href=\"a.xsl\"")) = .ok r) ∧
    (∀ c s, (b!"href=\"a.xsl\"") = c :: s → isSpace c = false) ∧ checkXmlDecl (b!"xml-stylesheet") (b!"href=\"a.xsl\"") = none :=
  ⟨(C62_procInst true _ _ _).1.2 ⟨by decide +kernel, by decide, by decide⟩, by rintro c s ⟨⟩; decide, by decide⟩

/-- Data beginning with a space comes back without it. -/
theorem C62_refuted_procInst : encodeToken false (Printer.new [] []) (.procInst (b!"a") (b!" b")) = .ok (Printer.new [] [], b!"<?a  b?>") ∧
    rawToken ⟨b!"<?a  b?>", none⟩ = .ok (.procInst (b!"a") (b!"b"), ⟨[], none⟩) := by
  constructor <;> decide +kernel

/-! ### Directives -/

theorem byte_cases (b : UInt8) : (b = ch%'\'' ∨ b = ch%'"') ∨ b = ch%'<' ∨ b = ch%'>' ∨ plainByte b = true := by
  simp only [plainByte, Bool.and_eq_true, bne_iff_ne]
  tauto

/-- The rest of the text is in a quoted string. -/
def InQuote (q : UInt8) (k : Nat) (s : Bytes) : Prop := ∃ t u, s = t ++ q :: u ∧ q ∉ t ∧ DirText k u

theorem inQuote_cons (q c : UInt8) (k : Nat) (s : Bytes) : InQuote q k (c :: s) ↔ if c = q then DirText k s else InQuote q k s := by
  unfold InQuote
  constructor
  · rintro ⟨t, u, h1, h2, h3⟩
    cases t with
    | nil => injection h1 with h1 h4; rw [if_pos h1, h4]; exact h3
    | cons x t =>
      injection h1 with h1 h4
      subst h1
      rw [if_neg (fun e => h2 (by simp [e]))]
      exact ⟨t, u, h4, fun hm => h2 (by simp [hm]), h3⟩
  · split
    · rename_i hc
      intro h
      exact ⟨[], s, by simp [hc], by simp, h⟩
    · rename_i hc
      rintro ⟨t, u, h1, h2, h3⟩
      exact ⟨c :: t, u, by simp [h1], by simp [h2]; exact fun e => hc e.symm, h3⟩

theorem dirText_quote {q : UInt8} (hq : q = ch%'\'' ∨ q = ch%'"') (k : Nat) (s : Bytes) : DirText k (q :: s) ↔ InQuote q k s := by
  constructor
  · intro h
    cases h with
    | plain h _ => have := plain_ne h; tauto
    | quoted _ h1 h2 => exact ⟨_, _, rfl, h1, h2⟩
    | «open» => exact absurd hq (by decide)
    | close => exact absurd hq (by decide)
  · rintro ⟨t, u, rfl, h1, h2⟩
    exact .quoted hq h1 h2

theorem dirText_plain {b : UInt8} (hb : plainByte b = true) (k : Nat) (s : Bytes) : DirText k (b :: s) ↔ DirText k s := by
  have := plain_ne hb
  constructor
  · intro h
    cases h with
    | plain _ h => exact h
    | quoted h => tauto
    | «open» => exact absurd hb (by decide)
    | close => exact absurd hb (by decide)
  · exact .plain hb

theorem dirText_open (k : Nat) (s : Bytes) : DirText k (ch%'<' :: s) ↔ ¬ (b!"!--") <+: s ∧ DirText (k + 1) s := by
  constructor
  · intro h
    cases h with
    | plain h _ => exact absurd h (by decide)
    | quoted h => exact absurd h (by decide)
    | «open» h1 h2 => exact ⟨h1, h2⟩
  · exact fun h => .open h.1 h.2

theorem dirText_close (k : Nat) (s : Bytes) : DirText k (ch%'>' :: s) ↔ ∃ j, k = j + 1 ∧ DirText j s := by
  constructor
  · intro h
    cases h with
    | plain h _ => exact absurd h (by decide)
    | quoted h => exact absurd h (by decide)
    | close h => exact ⟨_, rfl, h⟩
  · rintro ⟨j, rfl, h⟩
    exact .close h

theorem dirText_nil (k : Nat) : DirText k [] ↔ k = 0 := by
  constructor
  · intro h; cases h; rfl
  · rintro rfl; exact .nil

theorem prefix_lt (s : Bytes) : (b!"<!--").isPrefixOf (ch%'<' :: s) = true ↔ (b!"!--") <+: s := by
  rw [List.isPrefixOf_iff_prefix]
  simp

theorem dirScan_cons (before : Bytes) (k : Nat) (q c : UInt8) (r : Bytes) : dirScan before k q false (c :: r) =
    if q ≠ 0 then dirScan (c :: before) k (if c = q then 0 else q) false r
    else if c = ch%'\'' ∨ c = ch%'"' then dirScan (c :: before) k c false r
    else if c = ch%'<' then
      if 4 < (c :: r).length ∧ (b!"<!--").isPrefixOf (c :: r) then dirScan (c :: before) k 0 true r
      else dirScan (c :: before) (k + 1) 0 false r
    else if c = ch%'>' then
      match k with
      | 0 => false
      | d + 1 => dirScan (c :: before) d 0 false r
    else dirScan (c :: before) k 0 false r := by
  rw [dirScan.eq_def]
  rfl

/-- The scan of the encoder on text without comments. -/
theorem dirScan_iff : ∀ (s before : Bytes) (k : Nat), ¬ (b!"<!--") <:+: s →
    (dirScan before k 0 false s = true ↔ DirText k s) ∧
    (∀ q, q = ch%'\'' ∨ q = ch%'"' → (dirScan before k q false s = true ↔ InQuote q k s))
  | [], before, k, _ => by
    constructor
    · rw [dirText_nil]; simp [dirScan]
    · intro q hq
      have : q ≠ 0 := by rcases hq with rfl | rfl <;> decide
      constructor
      · intro h; simp [dirScan, this] at h
      · rintro ⟨t, u, h, _⟩; simp at h
  | c :: s, before, k, hc => by
    have hc' : ¬ (b!"<!--") <:+: s := fun h => hc (h.trans (List.suffix_cons ..).isInfix)
    have ih := fun k => dirScan_iff s (c :: before) k hc'
    constructor
    · rw [dirScan_cons, if_neg (by simp)]
      rcases byte_cases c with h | rfl | rfl | h
      · rw [if_pos h, dirText_quote h, (ih k).2 c h]
      · have hp : ¬ (b!"!--") <+: s := fun h => hc (List.IsPrefix.isInfix (by
          rw [← List.isPrefixOf_iff_prefix, prefix_lt]; exact h))
        rw [if_neg (by decide), if_pos rfl, if_neg (by rw [prefix_lt]; exact fun h => hp h.2), dirText_open, (ih (k + 1)).1]
        simp [hp]
      · rw [if_neg (by decide), if_neg (by decide), if_pos rfl, dirText_close]
        cases k with
        | zero => simp
        | succ k =>
          dsimp only
          rw [(ih k).1]
          simp
      · have hn := plain_ne h
        rw [if_neg (by tauto), if_neg hn.2.2.1, if_neg hn.2.2.2, dirText_plain h, (ih k).1]
    · intro q hq
      have h0 : q ≠ 0 := by rcases hq with rfl | rfl <;> decide
      rw [dirScan_cons, if_pos h0, inQuote_cons]
      split
      · exact (ih k).1
      · exact (ih k).2 q hq

/-- The scan of the encoder accepts text with matching brackets. -/
theorem dirScan_of {k : Nat} {s : Bytes} (h : DirText k s) : ∀ before, dirScan before k 0 false s = true := by
  induction h with
  | nil => intro _; rfl
  | plain hb _ ih =>
    intro before
    have hn := plain_ne hb
    rw [dirScan_cons, if_neg (by simp), if_neg (by tauto), if_neg hn.2.2.1, if_neg hn.2.2.2]
    exact ih _
  | @quoted k q t s hq ht _ ih =>
    intro before
    have h0 : q ≠ 0 := by rcases hq with rfl | rfl <;> decide
    rw [dirScan_cons, if_neg (by simp), if_pos hq]
    generalize q :: before = bf
    induction t generalizing bf with
    | nil => rw [List.nil_append, dirScan_cons, if_pos h0, if_pos rfl]; exact ih _
    | cons x t iht =>
      rw [List.cons_append, dirScan_cons, if_pos h0, if_neg (fun e => ht (by simp [e]))]
      exact iht (fun hm => ht (by simp [hm])) _
  | «open» hp _ ih =>
    intro before
    rw [dirScan_cons, if_neg (by simp), if_neg (by decide), if_pos rfl, if_neg (by rw [prefix_lt]; exact fun h => hp h.2)]
    exact ih _
  | close _ ih =>
    intro before
    rw [dirScan_cons, if_neg (by simp), if_neg (by decide), if_neg (by decide), if_pos rfl]
    exact ih _

/-! ### Directives with comments -/

/-- A comment in a directive makes it shorter. -/
theorem dl_comment (k : Int) (buf s d r : Bytes) (h : (b!"!--") <+: s) (he : dl 0 k buf (ch%'<' :: s) = .ok (d, r)) :
    d.length + r.length + 1 < buf.length + (ch%'<' :: s).length := by
  obtain ⟨u, rfl⟩ := h
  rw [dl, List.length_cons, dirLoop, if_neg (by simp), if_neg (by decide), if_neg (by simp), if_neg (by decide), if_neg (by decide), if_pos rfl] at he
  have hl : dirLt (b!"!--" ++ u) = .comment u := rfl
  rw [hl] at he
  dsimp only at he
  split at he
  · cases he
  · rename_i r'' hk
    have h1 := Grammar.skipComment_le _ _ _ _ hk
    have h2 := dirLoop_size _ _ _ _ _ _ _ _ he
    simp at *
    omega

theorem dl_more (inq : UInt8) (k : Int) (buf buf' r : Bytes) : dl inq k buf r ≠ .ok (buf', r) := by
  intro h
  obtain ⟨p, h1, h2, _⟩ := dirLoop_local _ _ _ _ _ _ _ _ h
  have := congrArg List.length h2
  simp at this
  exact h1 this

theorem prefix_gt {s r : Bytes} (h : (b!"!--") <+: (s ++ ch%'>' :: r)) : (b!"!--") <+: s := by
  rcases s with _ | ⟨a, _ | ⟨b, _ | ⟨c, s⟩⟩⟩
  · simp at h
  · simp at h
  · simp at h
  · simpa using h

/-- The directive loop returns the text of a directive exactly if its brackets match and no comment begins in it. -/
theorem dl_iff : ∀ (s buf r : Bytes) (k : Nat),
    (dl 0 k buf (s ++ ch%'>' :: r) = .ok (buf ++ s, r) ↔ DirText k s) ∧
    (∀ q, q = ch%'\'' ∨ q = ch%'"' → (dl q k buf (s ++ ch%'>' :: r) = .ok (buf ++ s, r) ↔ InQuote q k s))
  | [], buf, r, k => by
    constructor
    · rw [dirText_nil, List.nil_append, List.append_nil]
      cases k with
      | zero => exact ⟨fun _ => rfl, fun _ => dl_end buf r⟩
      | succ k =>
        rw [dl_close]
        exact ⟨fun h => absurd h (dl_more _ _ _ _ _), fun h => by cases h⟩
    · intro q hq
      rw [List.nil_append, List.append_nil, dl_inq hq]
      exact ⟨fun h => absurd h (dl_more _ _ _ _ _), fun ⟨t, u, h, _⟩ => by simp at h⟩
  | c :: s, buf, r, k => by
    have ih := fun k => dl_iff s (buf ++ [c]) r k
    simp only [List.append_assoc, List.singleton_append] at ih
    rw [List.cons_append]
    constructor
    · rcases byte_cases c with h | rfl | rfl | h
      · rw [dl_quote h, dirText_quote h, (ih k).2 c h]
      · rw [dirText_open]
        by_cases hp : (b!"!--") <+: s
        · refine ⟨fun h => ?_, fun h => absurd hp h.1⟩
          have := dl_comment k buf _ _ _ (hp.trans (List.prefix_append ..)) h
          simp at this
          omega
        · rw [dl_open _ _ _ (fun h => hp (prefix_gt h)), (ih (k + 1)).1]
          simp [hp]
      · rw [dirText_close]
        cases k with
        | zero =>
          rw [show ((0 : Nat) : Int) = 0 from rfl, dl_end]
          constructor
          · intro h
            injection h with h
            injection h with h _
            have := congrArg List.length h
            simp at this
          · rintro ⟨j, h, _⟩; cases h
        | succ k =>
          rw [dl_close, (ih k).1]
          simp
      · rw [dl_char c h, dirText_plain h, (ih k).1]
    · intro q hq
      rw [dl_inq hq, inQuote_cons]
      split
      · exact (ih k).1
      · exact (ih k).2 q hq

/-- C62: `EncodeToken` accepts every directive in which, outside of quoted strings, the angle brackets match and no comment
begins, and of the directives that do not contain `<!--` it accepts no others.  The decoder returns the directive exactly if
it is not empty, does not begin like a comment or CDATA, and the same holds for what follows its first byte: the decoder does
not examine that one. -/
theorem C62_directive (buffered : Bool) (p : Printer) (d : Bytes) :
    (DirText 0 d → ∃ r, encodeToken buffered p (.directive d) = .ok r) ∧
    (¬ (b!"<!--") <:+: d → ((∃ r, encodeToken buffered p (.directive d) = .ok r) ↔ DirText 0 d)) ∧
    (∀ p' b, encodeToken buffered p (.directive d) = .ok (p', b) → p' = p ∧
      ∀ r, rawToken ⟨b ++ r, none⟩ = .ok (.directive d, ⟨r, none⟩) ↔ ∃ c s, d = c :: s ∧ c ≠ ch%'-' ∧ c ≠ ch%'[' ∧ DirText 0 s) := by
  simp only [encodeToken]
  have hacc : (∃ r, (if isValidDirective d = false then (.error .directive : Except TokErr (Printer × Bytes))
      else .ok (p, b!"<!" ++ d ++ b!">")) = .ok r) ↔ isValidDirective d = true := by
    cases isValidDirective d <;> simp
  refine ⟨fun h => ?_, fun hc => ?_, ?_⟩
  · rw [hacc]; exact dirScan_of h []
  · rw [hacc]; exact (dirScan_iff d [] 0 hc).1
  · intro p' b h
    split at h
    · cases h
    injection h with h
    injection h with h1 h2
    subst h2
    refine ⟨h1.symm, fun r => ?_⟩
    cases d with
    | nil =>
      constructor
      · intro h
        exfalso
        have e : (b!"<!" ++ [] ++ b!">") ++ r = ch%'<' :: ch%'!' :: ch%'>' :: r := rfl
        unfold rawToken at h
        simp only [e] at h
        rw [if_neg (by simp), if_neg (by decide), if_neg (by decide), if_pos trivial] at h
        unfold bangTag at h
        dsimp only at h
        rw [if_neg (by decide), if_neg (by decide)] at h
        split at h
        · cases h
        · rename_i d r2 hl
          injection h with h
          injection h with _ h
          injection h with h _
          subst h
          exact dl_more _ _ _ _ _ hl
      · rintro ⟨c, s, h, _⟩; cases h
    | cons c s =>
      have e : (b!"<!" ++ c :: s ++ b!">") ++ r = ch%'<' :: ch%'!' :: c :: (s ++ ch%'>' :: r) := by simp
      unfold rawToken
      simp only [e]
      rw [if_neg (by simp), if_neg (by decide), if_neg (by decide), if_pos trivial]
      unfold bangTag
      dsimp only
      have key := (dl_iff s [c] r 0).1
      constructor
      · intro h
        refine ⟨c, s, rfl, ?_⟩
        by_cases hc1 : c = ch%'-'
        · rw [if_pos hc1] at h
          split at h
          · cases h
          · split at h
            · cases h
            · split at h
              · cases h
              · cases h
        · rw [if_neg hc1] at h
          by_cases hc2 : c = ch%'['
          · rw [if_pos hc2] at h
            split at h
            · cases h
            · split at h
              · cases h
              · cases h
          · rw [if_neg hc2] at h
            refine ⟨hc1, hc2, key.1 ?_⟩
            split at h
            · cases h
            · rename_i d' r2 hl
              injection h with h
              injection h with h h'
              injection h with h
              injection h' with h'
              subst h; subst h'
              exact hl
      · rintro ⟨c', s', he, hc1, hc2, ht⟩
        injection he with he he'
        subst he; subst he'
        rw [if_neg hc1, if_neg hc2]
        have := key.2 ht
        unfold dl at this
        rw [show ((0 : Nat) : Int) = 0 from rfl] at this
        rw [this]
        rfl

/-- The directive `DOCTYPE a [<!ELEMENT a "<">]`. -/
example : DirText 0 (b!"DOCTYPE a [<!ELEMENT a \"<\">]") :=
  (dirScan_iff _ [] 0 (by decide)).1.1 (by decide +kernel)

/-- Directives that `EncodeToken` accepts and the decoder does not return: an empty one, one that is read as text, and one with
a comment, which is replaced by a space. -/
theorem C62_refuted_directive :
    (encodeToken false (Printer.new [] []) (.directive []) = .ok (Printer.new [] [], b!"<!>") ∧
      rawToken ⟨b!"<!>", none⟩ = .error unexpectedEOF) ∧
    (encodeToken false (Printer.new [] []) (.directive (b!"[CDATA[x]]")) = .ok (Printer.new [] [], b!"<![CDATA[x]]>") ∧
      rawToken ⟨b!"<![CDATA[x]]>", none⟩ = .ok (.charData (b!"x"), ⟨[], none⟩)) ∧
    (encodeToken false (Printer.new [] []) (.directive (b!"A<!--b-->C")) = .ok (Printer.new [] [], b!"<!A<!--b-->C>") ∧
      rawToken ⟨b!"<!A<!--b-->C>", none⟩ = .ok (.directive (b!"A C"), ⟨[], none⟩)) ∧
    (encodeToken false (Printer.new [] []) (.directive (b!"A<!-->")) = .ok (Printer.new [] [], b!"<!A<!-->>") ∧
      rawToken ⟨b!"<!A<!-->>", none⟩ = .error unexpectedEOF) := by
  refine ⟨⟨?_, ?_⟩, ⟨?_, ?_⟩, ⟨?_, ?_⟩, ⟨?_, ?_⟩⟩ <;> decide +kernel

end Verif.EncTok
