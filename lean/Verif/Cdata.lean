import Verif.GrammarProps
import Verif.EncTokProps

/-!
Fields with the tags `,cdata` and `,comment`: `emitCDATA` and the comment part of `marshalStruct`, and how what they write is read.
-/
namespace Verif.Cdata

open Verif.Xml Verif.Utf8 Verif.Grammar

/-! ### Model -/

/-- `bytes.Cut` (Go standard library), used in `/repo/xml/xml.go` 2074: the parts before and after the first separator. -/
def cut (s sep : Bytes) : Option (Bytes × Bytes) := (index s sep).map fun k => (s.take k, s.drop (k + sep.length))

/-- The loop of `emitCDATA` with the final text and `]]>` (`/repo/xml/xml.go` 2073-2092).  Fuel: one unit per `]]>`.  Errors of the writer
are left out: those of `printer` are kept and reported at the end (`WriteIO`). -/
def cdataLoop : Nat → Bytes → Bytes
  | 0, s => s ++ b!"]]>"
  | n + 1, s =>
    match cut s (b!"]]>") with
    | none => s ++ b!"]]>"
    | some (before, after) => before ++ (b!"]]]]><![CDATA[>" ++ cdataLoop n after)

/-- `emitCDATA` (`/repo/xml/xml.go` 2065-2093). -/
def emitCDATA (s : Bytes) : Bytes := if s = [] then [] else b!"<![CDATA[" ++ cdataLoop s.length s

/-- A field with the tag `,comment` in `marshalStruct` (`/repo/xml/marshal.go` 1082-1123), of type `string` or `[]byte`: the text written, or
nothing if it is an error.  Without indentation (`writeIndent(0)` writes nothing then). -/
def commentField (s : Bytes) : Option Bytes :=
  if s = [] then some []
  else if EncTok.contains s (b!"--") = true then none
  else some (b!"<!--" ++ (s ++ ((if s.getLast? = some ch%'-' then b!" " else []) ++ b!"-->")))

/-! ### Specification -/

/-- The text of the next `k` tokens, which are all character data, and the decoder after them. -/
def chars : Nat → Raw → Option (Bytes × Raw)
  | 0, d => some ([], d)
  | k + 1, d =>
    match rawToken d with
    | .ok (.charData b, d') => (chars k d').map fun p => (b ++ p.1, p.2)
    | _ => none

/-! ### Splitting text at an ASCII byte -/

theorem chunks_split {x : UInt8} (hx : x.toNat < 0x80) (b : Bytes) : ∀ (l : List (Nat × Bytes)) (a : Bytes),
    (∀ p ∈ l, (p.2 ≠ [] ∧ ∀ y ∈ p.2, 0x80 ≤ y.toNat) ∨ ∃ y, p.2 = [y]) → l.flatMap (·.2) = a ++ x :: b →
    ∃ l1 l2, l = l1 ++ l2 ∧ l1.flatMap (·.2) = a ∧ l2.flatMap (·.2) = x :: b
  | [], a, _, h => by simp at h
  | p :: l, [], hl, h => ⟨[], p :: l, rfl, rfl, h⟩
  | p :: l, y :: a, hl, h => by
    rw [List.flatMap_cons] at h
    have key : ∃ a', y :: a = p.2 ++ a' ∧ l.flatMap (·.2) = a' ++ x :: b := by
      rcases hl p (by simp) with ⟨hne, hh⟩ | ⟨z, hz⟩
      · rcases List.append_eq_append_iff.1 h with ⟨as, h1, h2⟩ | ⟨bs, h1, h2⟩
        · exact ⟨as, h1, h2⟩
        · cases bs with
          | nil => exact ⟨[], by simpa using h1.symm, by simpa using h2.symm⟩
          | cons z bs =>
            injection h2 with h2 _
            subst h2
            have := hh x (by rw [h1]; simp)
            omega
      · rw [hz] at h
        injection h with h1 h2
        exact ⟨a, by rw [hz, h1]; rfl, h2⟩
    obtain ⟨a', e1, e2⟩ := key
    obtain ⟨l1, l2, rfl, e3, e4⟩ := chunks_split hx b l a' (fun q hq => hl q (by simp [hq])) e2
    exact ⟨p :: l1, l2, rfl, by rw [List.flatMap_cons, e3, e1], e4⟩

/-- Text can be cut in front of an ASCII byte. -/
theorem xmlText_split {a b : Bytes} {x : UInt8} (hx : x.toNat < 0x80) (h : IsXmlText (a ++ x :: b)) : IsXmlText a ∧ IsXmlText (x :: b) := by
  have hw := wf_chunk _ (xmlText_wf h)
  obtain ⟨l1, l2, e, e1, e2⟩ := chunks_split hx b (runes (a ++ x :: b)) a (by
    intro p hp
    by_cases hr : p.1 < 0x80
    · obtain ⟨y, hy, _⟩ := chunk_single (hw p hp) hr
      exact Or.inr ⟨y, hy⟩
    · exact Or.inl ⟨(hw p hp).1, chunk_high (hw p hp) (h p hp).2 (by omega)⟩) (runes_flatten _)
  have r1 : runes a = l1 := by
    have := runes_flatMap_append id l1 (fun p hp => hw p (by rw [e]; simp [hp])) []
    simpa [e1] using this
  have r2 : runes (x :: b) = l2 := by
    have := runes_flatMap_append id l2 (fun p hp => hw p (by rw [e]; simp [hp])) []
    simpa [e2] using this
  unfold IsXmlText at h ⊢
  rw [r1, r2]
  exact ⟨fun p hp => h p (by rw [e]; simp [hp]), fun p hp => h p (by rw [e]; simp [hp])⟩

theorem xmlText_cut {a b : Bytes} {x : UInt8} (hx : x.toNat < 0x80) (hc : IsXmlText [x]) :
    IsXmlText (a ++ x :: b) ↔ IsXmlText a ∧ IsXmlText b := by
  constructor
  · intro h
    obtain ⟨h1, h2⟩ := xmlText_split hx h
    refine ⟨h1, ?_⟩
    have e : runes (x :: b) = (x.toNat, [x]) :: runes b := runes_chunk (isChunk_ascii x hx) b
    unfold IsXmlText at h2 ⊢
    rw [e] at h2
    exact fun p hp => h2 p (by simp [hp])
  · rintro ⟨h1, h2⟩
    exact xmlText_append h1 (xmlText_append (s := [x]) hc h2)

/-! ### Line ends -/

theorem eolFrom_append (a : Bytes) (b1 : UInt8) (r : Bytes) : ∃ b2, eolFrom b1 (a ++ r) = eolFrom b1 a ++ eolFrom b2 r := by
  induction a generalizing b1 with
  | nil => exact ⟨b1, rfl⟩
  | cons x a ih =>
    obtain ⟨b2, e⟩ := ih x
    exact ⟨b2, by rw [List.cons_append, eolFrom, e, eolFrom, List.append_assoc]⟩

/-- Line ends are not affected by a cut, except within `\r\n`. -/
theorem eol_append {a b : Bytes} {x : UInt8} (hx : x ≠ ch%'\n') : eol (a ++ x :: b) = eol a ++ eol (x :: b) := by
  obtain ⟨b2, e⟩ := eolFrom_append a 0 (x :: b)
  rw [← eolFrom_zero, e, eolFrom_zero, eolFrom_eol (x :: b)]
  dsimp only
  rw [if_neg (fun h => hx h.2)]

theorem eol_none (a : Bytes) (h : ch%'\r' ∉ a) : eol a = a := by
  rw [← eolFrom_zero]
  suffices ∀ b1, b1 ≠ ch%'\r' → eolFrom b1 a = a from this 0 (by decide)
  induction a with
  | nil => intro _ _; rfl
  | cons x a ih =>
    intro b1 h1
    have hx : x ≠ ch%'\r' := fun e => h (by simp [e])
    rw [eolFrom, ih (fun e => h (by simp [e])) x hx, putByte, if_neg hx, if_neg (fun e => h1 e.1)]
    rfl

theorem xmlText_eol_iff (s : Bytes) : IsXmlText (eol s) ↔ IsXmlText s := by
  suffices ∀ n (s : Bytes), s.length ≤ n → (IsXmlText (eol s) ↔ IsXmlText s) from this _ s (Nat.le_refl _)
  intro n
  induction n with
  | zero => intro s h; rw [List.length_eq_zero_iff.1 (Nat.le_zero.1 h)]; rfl
  | succ n ih =>
    intro s hs
    by_cases hr : ch%'\r' ∈ s
    · obtain ⟨a, r, rfl, ha⟩ := List.eq_append_cons_of_mem hr
      have hcr : IsXmlText [ch%'\r'] := by decide +kernel
      have hlf : IsXmlText [ch%'\n'] := by decide +kernel
      simp only [List.length_append, List.length_cons] at hs
      rw [eol_append (by decide), eol_none a ha, xmlText_cut (by decide) hcr]
      match r, hs with
      | [], hs => rw [show eol [ch%'\r'] = ch%'\n' :: [] from rfl, xmlText_cut (by decide) hlf]
      | c :: r, hs =>
        simp only [List.length_cons] at hs
        unfold eol
        rw [if_pos rfl]
        by_cases hc : c = ch%'\n'
        · rw [if_pos hc, xmlText_cut (by decide) hlf, ih r (by omega), hc]
          have := xmlText_cut (a := []) (b := r) (x := ch%'\n') (by decide) hlf
          rw [List.nil_append] at this
          simp [this, xmlText_nil]
        · rw [if_neg hc, xmlText_cut (by decide) hlf, ih (c :: r) (by simp; omega)]
    · rw [eol_none s hr]

/-! ### CDATA sections -/

theorem cut_none {s : Bytes} (h : cut s (b!"]]>") = none) : ¬ (b!"]]>") <:+: s := by
  rw [← EncTok.index_none]
  simpa [cut] using h

theorem cut_some : ∀ (s : Bytes) {x y : Bytes}, cut s (b!"]]>") = some (x, y) → s = x ++ (b!"]]>" ++ y) ∧ ¬ (b!"]]>") <:+: (x ++ b!"]]")
  | [], x, y, h => by simp [cut, index] at h
  | c :: s, x, y, h => by
    unfold cut index at h
    by_cases hp : (b!"]]>").isPrefixOf (c :: s) = true
    · rw [if_pos hp, Option.map_some, Option.some.injEq, Prod.mk.injEq] at h
      obtain ⟨rfl, rfl⟩ := h
      refine ⟨?_, by rw [List.take_zero]; decide +kernel⟩
      have := List.prefix_iff_eq_append.1 (List.isPrefixOf_iff_prefix.1 hp)
      simpa using this.symm
    · rw [if_neg hp] at h
      cases hi : index s (b!"]]>") with
      | none => rw [hi] at h; cases h
      | some k =>
        rw [hi, Option.map_some, Option.map_some, Option.some.injEq, Prod.mk.injEq] at h
        obtain ⟨rfl, rfl⟩ := h
        obtain ⟨h1, h2⟩ := cut_some s (x := s.take k) (y := s.drop (k + 3)) (by rw [cut, hi]; rfl)
        have e : (c :: s) = (c :: s).take (k + 1) ++ (b!"]]>" ++ (c :: s).drop (k + 1 + 3)) := by
          rw [List.take_succ_cons, show k + 1 + 3 = (k + 3) + 1 by omega, List.drop_succ_cons, List.cons_append, ← h1]
        refine ⟨e, fun hf => ?_⟩
        rw [List.take_succ_cons, List.cons_append] at hf
        rcases List.infix_cons_iff.1 hf with hf | hf
        · apply hp
          rw [List.isPrefixOf_iff_prefix]
          rw [h1]
          have : (b!"]]>") <+: (c :: (s.take k ++ b!"]]")) ++ (b!">" ++ s.drop (k + 3)) := hf.trans (List.prefix_append ..)
          simpa using this
        · exact h2 hf

theorem no_end_cons {x : Bytes} (h : ¬ (b!"]]>") <:+: x) : ¬ (b!"]]>") <:+: (ch%'>' :: x) :=
  fun hc => h (infix_cons_ne (by decide) hc)

/-- What `cdataLoop` writes are sections, of which the first has been begun with `pre`. -/
theorem cdataLoop_parts : ∀ (n : Nat) (s pre : Bytes), pre = [] ∨ pre = [ch%'>'] → s.length ≤ n →
    ∃ p ps, b!"<![CDATA[" ++ (pre ++ cdataLoop n s) = srcs ((p :: ps).map Node.cdata) ∧ (p :: ps).flatten = pre ++ s ∧
      (∀ q ∈ p :: ps, ¬ (b!"]]>") <:+: q) ∧ (∃ t, p = pre ++ t) ∧ ∀ q ∈ ps, ∃ t, q = ch%'>' :: t := by
  have first : ∀ {pre x : Bytes}, pre = [] ∨ pre = [ch%'>'] → ¬ (b!"]]>") <:+: x → ¬ (b!"]]>") <:+: (pre ++ x) := by
    rintro pre x (rfl | rfl) h
    · exact h
    · exact no_end_cons h
  have last : ∀ (s pre : Bytes), pre = [] ∨ pre = [ch%'>'] → ¬ (b!"]]>") <:+: s →
      ∃ p ps, b!"<![CDATA[" ++ (pre ++ (s ++ b!"]]>")) = srcs ((p :: ps).map Node.cdata) ∧ (p :: ps).flatten = pre ++ s ∧
      (∀ q ∈ p :: ps, ¬ (b!"]]>") <:+: q) ∧ (∃ t, p = pre ++ t) ∧ ∀ q ∈ ps, ∃ t, q = ch%'>' :: t := by
    intro s pre hpre hn
    refine ⟨pre ++ s, [], by simp [srcs, Node.src], by simp, ?_, ⟨s, rfl⟩, by simp⟩
    intro q hq
    rw [List.mem_singleton] at hq
    subst hq
    exact first hpre hn
  intro n
  induction n with
  | zero =>
    intro s pre hpre hs
    have : s = [] := List.length_eq_zero_iff.1 (by omega)
    subst this
    exact last [] pre hpre (by decide +kernel)
  | succ n ih =>
    intro s pre hpre hs
    rw [cdataLoop]
    cases hc : cut s (b!"]]>") with
    | none => exact last s pre hpre (cut_none hc)
    | some xy =>
      obtain ⟨x, y⟩ := xy
      obtain ⟨rfl, hx⟩ := cut_some s hc
      obtain ⟨p, ps, e1, e2, e3, ⟨t, e4⟩, e5⟩ := ih y [ch%'>'] (Or.inr rfl) (by simp at hs; omega)
      refine ⟨pre ++ (x ++ b!"]]"), p :: ps, ?_, ?_, ?_, ⟨_, rfl⟩, ?_⟩
      · rw [List.map_cons, srcs, ← e1]
        simp [Node.src]
      · rw [List.flatten_cons, e2]
        simp
      · intro q hq
        rcases List.mem_cons.1 hq with rfl | hq
        · exact first hpre hx
        · exact e3 q hq
      · intro q hq
        rcases List.mem_cons.1 hq with rfl | hq
        · exact ⟨t, e4⟩
        · exact e5 q hq

/-- What `emitCDATA` writes: sections whose texts make up the text. -/
theorem emitCDATA_parts (s : Bytes) : ∃ ps : List Bytes, emitCDATA s = srcs (ps.map Node.cdata) ∧ ps.flatten = s ∧
    (∀ q ∈ ps, ¬ (b!"]]>") <:+: q) ∧ ∀ q ∈ ps.tail, ∃ t, q = ch%'>' :: t := by
  unfold emitCDATA
  split
  · rename_i h
    exact ⟨[], rfl, h.symm, by simp, by simp⟩
  · obtain ⟨p, ps, h1, h2, h3, -, h5⟩ := cdataLoop_parts s.length s [] (Or.inl rfl) (Nat.le_refl _)
    exact ⟨p :: ps, h1, h2, h3, h5⟩

theorem parts_text : ∀ (ps : List Bytes), (∀ q ∈ ps.tail, ∃ t, q = ch%'>' :: t) → (IsXmlText ps.flatten ↔ ∀ q ∈ ps, IsXmlText q)
  | [], _ => by simp [xmlText_nil]
  | [p], _ => by simp
  | p :: q :: ps, h => by
    obtain ⟨t, rfl⟩ := h q (by simp)
    have ih := parts_text ((ch%'>' :: t) :: ps) (fun x hx => h x (by simp at hx ⊢; exact Or.inr hx))
    rw [List.flatten_cons]
    constructor
    · intro hx
      rw [List.flatten_cons, List.cons_append] at hx
      obtain ⟨h1, h2⟩ := xmlText_split (by decide) hx
      intro x hx
      rcases List.mem_cons.1 hx with rfl | hx
      · exact h1
      · exact ih.1 (by rw [List.flatten_cons]; exact h2) x hx
    · intro hx
      exact xmlText_append (hx p (by simp)) (ih.2 fun x hx' => hx x (by simp only [List.mem_cons] at hx' ⊢; exact Or.inr hx'))

theorem parts_eol : ∀ (ps : List Bytes), (∀ q ∈ ps.tail, ∃ t, q = ch%'>' :: t) → (ps.map eol).flatten = eol ps.flatten
  | [], _ => rfl
  | [p], _ => by simp
  | p :: q :: ps, h => by
    obtain ⟨t, rfl⟩ := h q (by simp)
    have ih := parts_eol ((ch%'>' :: t) :: ps) (fun x hx => h x (by simp at hx ⊢; exact Or.inr hx))
    rw [List.map_cons, List.flatten_cons, ih, List.flatten_cons, List.flatten_cons, List.flatten_cons, List.cons_append, eol_append (by decide)]

/-! ### Reading -/

theorem chars_ok : ∀ (ps : List Bytes) (r : Bytes), (∀ q ∈ ps, (Node.cdata q).Ok) →
    chars ps.length ⟨srcs (ps.map Node.cdata) ++ r, none⟩ = some ((ps.map eol).flatten, ⟨r, none⟩)
  | [], r, _ => rfl
  | p :: ps, r, h => by
    rw [List.length_cons, chars, List.map_cons, srcs, List.append_assoc, rawToken_cdata p _ (h p (by simp))]
    dsimp only
    rw [chars_ok ps r fun q hq => h q (by simp [hq])]
    rfl

/-- C73: text in a `,cdata` field is read back as character data in one or more pieces, with line ends normalized. -/
theorem C73_cdata (s : Bytes) (h : IsXmlText s) : ∃ k, ∀ r, chars k ⟨emitCDATA s ++ r, none⟩ = some (eol s, ⟨r, none⟩) := by
  obtain ⟨ps, e1, e2, e3, e4⟩ := emitCDATA_parts s
  rw [← e2] at h
  refine ⟨ps.length, fun r => ?_⟩
  rw [e1, chars_ok ps r (fun q hq => by rw [Node.Ok]; exact ⟨(parts_text ps e4).1 h q hq, e3 q hq⟩), parts_eol ps e4, e2]

theorem infos_chars : ∀ (ps : List Bytes) (l : List Grammar.Node), infos (ps.map Node.cdata ++ l) = addChars (ps.map eol).flatten (infos l)
  | [], l => by simp [addChars]
  | p :: ps, l => by
    rw [List.map_cons, List.cons_append, infos, infos_chars ps l, Node.info, List.map_cons, List.flatten_cons]
    generalize infos l = m
    generalize (ps.map eol).flatten = b
    unfold addChars
    by_cases h1 : eol p = []
    · simp [h1]
    · by_cases h2 : b = []
      · simp [h1, h2]
      · cases m with
        | nil => simp [h1, h2]
        | cons x m => cases x <;> simp [h1, h2]

/-- C73: in the content of an element, what `emitCDATA` writes is well-formed and says the same as the text. -/
theorem C73_content (s : Bytes) (h : IsXmlText s) : ∃ l : List Grammar.Node, emitCDATA s = srcs l ∧ (∀ x ∈ l, x.Ok ∧ x.Usual ∧ x.isText = false) ∧
    ∀ l', infos (l ++ l') = addChars (eol s) (infos l') := by
  obtain ⟨ps, e1, e2, e3, e4⟩ := emitCDATA_parts s
  rw [← e2] at h
  refine ⟨ps.map Node.cdata, e1, fun x hx => ?_, fun l' => by rw [infos_chars, parts_eol ps e4, e2]⟩
  obtain ⟨q, hq, rfl⟩ := List.mem_map.1 hx
  refine ⟨?_, ?_, rfl⟩
  · rw [Node.Ok]; exact ⟨(parts_text ps e4).1 h q hq, e3 q hq⟩
  · simp [Node.Usual]

theorem checkChars_syntax (l : List (Nat × Bytes)) (e : XErr) (h : checkChars l = some e) : ∃ m, e = .syntaxError m := by
  induction l with
  | nil => cases h
  | cons x l ih =>
    unfold checkChars at h
    split at h
    · injection h with h; exact ⟨_, h.symm⟩
    · split at h
      · exact ih h
      · injection h with h; exact ⟨_, h.symm⟩

theorem rawToken_bad (b r : Bytes) (h : ¬ (b!"]]>") <:+: b) (hx : ¬ IsXmlText b) :
    ∃ m, rawToken ⟨(Node.cdata b).src ++ r, none⟩ = .error (.syntaxError m) := by
  have e : (Node.cdata b).src ++ r = ch%'<' :: ch%'!' :: ch%'[' :: (b!"CDATA[" ++ (b ++ (b!"]]>" ++ r))) := by
    simp [Node.src]
  have hc : cdataOpen (b!"CDATA[") (b!"CDATA[" ++ (b ++ (b!"]]>" ++ r))) = .ok (b ++ (b!"]]>" ++ r)) := rfl
  have ht : ∃ m, text none true (b ++ (b!"]]>" ++ r)) = .error (.syntaxError m) := by
    have := textL_cdata b 0 0 [] r (fun hc => h (infix_cons_ne (by decide) (infix_cons_ne (by decide) hc)))
    rw [List.nil_append, eolFrom_zero] at this
    unfold textL at this
    unfold text
    rw [this]
    dsimp only
    cases hk : checkChars (runes (eol b)) with
    | none => exact absurd ((xmlText_eol_iff b).1 ((checkChars_none _).1 hk)) hx
    | some e =>
      obtain ⟨m, rfl⟩ := checkChars_syntax _ _ hk
      exact ⟨m, rfl⟩
  obtain ⟨m, ht⟩ := ht
  refine ⟨m, ?_⟩
  unfold rawToken
  simp only [e]
  rw [if_neg (by simp), if_neg (by decide), if_neg (by decide), if_pos trivial]
  unfold bangTag
  dsimp only
  rw [if_neg (by decide), if_pos rfl, hc]
  dsimp only
  rw [ht]

theorem chars_bad : ∀ (ps : List Bytes), (∀ q ∈ ps, ¬ (b!"]]>") <:+: q) → (¬ ∀ q ∈ ps, IsXmlText q) → ∀ r,
    ∃ k b d m, chars k ⟨srcs (ps.map Node.cdata) ++ r, none⟩ = some (b, d) ∧ rawToken d = .error (.syntaxError m)
  | [], _, h, _ => absurd (by simp) h
  | p :: ps, h, hn, r => by
    by_cases hp : IsXmlText p
    · obtain ⟨k, b, d, m, h1, h2⟩ := chars_bad ps (fun q hq => h q (by simp [hq])) (fun hall => hn fun q hq => by
        rcases List.mem_cons.1 hq with rfl | hq
        · exact hp
        · exact hall q hq) r
      refine ⟨k + 1, eol p ++ b, d, m, ?_, h2⟩
      rw [chars, List.map_cons, srcs, List.append_assoc, rawToken_cdata p _ (by rw [Node.Ok]; exact ⟨hp, h p (by simp)⟩)]
      dsimp only
      rw [h1]
      rfl
    · obtain ⟨m, hm⟩ := rawToken_bad p (srcs (ps.map Node.cdata) ++ r) (h p (by simp)) hp
      refine ⟨0, [], _, m, rfl, ?_⟩
      rw [List.map_cons, srcs, List.append_assoc]
      exact hm

/-- C73: anything else makes the document unreadable: `emitCDATA` neither escapes nor replaces what XML does not allow. -/
theorem C73_illegal (s : Bytes) (h : ¬ IsXmlText s) (r : Bytes) :
    ∃ k b d m, chars k ⟨emitCDATA s ++ r, none⟩ = some (b, d) ∧ rawToken d = .error (.syntaxError m) := by
  obtain ⟨ps, e1, e2, e3, e4⟩ := emitCDATA_parts s
  rw [e1]
  exact chars_bad ps e3 (fun hall => h (by rw [← e2]; exact (parts_text ps e4).2 hall)) r

theorem oks_of {l : List Grammar.Node} (h : ∀ x ∈ l, x.Ok ∧ x.Usual ∧ x.isText = false) : Grammar.Oks l ∧ Usuals l ∧ Grammar.Apart l := by
  induction l with
  | nil => exact ⟨trivial, trivial, trivial⟩
  | cons x l ih =>
    obtain ⟨h1, h2, h3⟩ := h x (by simp)
    obtain ⟨i1, i2, i3⟩ := ih fun y hy => h y (by simp [hy])
    refine ⟨⟨h1, i1⟩, ⟨h2, i2⟩, ?_⟩
    cases l with
    | nil => trivial
    | cons y l => exact ⟨by simp [h3], i3⟩

/-- C73: an element with a `,cdata` field is read as the element with that text. -/
theorem C73_document (n s : Bytes) (hn : IsNCName n) (h : IsXmlText s) (hne : s ≠ []) :
    ∃ t, Bind.IsDoc (ch%'<' :: (n ++ (ch%'>' :: (emitCDATA s ++ (b!"</" ++ (n ++ b!">")))))) t ∧ treeInfo t [] = [.elem ⟨[], n⟩ [] [.chars (eol s)]] := by
  obtain ⟨l, e1, e2, e3⟩ := C73_content s h
  obtain ⟨o1, o2, o3⟩ := oks_of e2
  have hr : infos l = [.chars (eol s)] := by
    have := e3 []
    have hn0 : eol s ≠ [] := by
      intro h0
      apply hne
      cases s with
      | nil => rfl
      | cons b s =>
        cases s <;> unfold eol at h0 <;> split at h0 <;> (try split at h0) <;> cases h0
    rw [List.append_nil] at this
    rw [this]
    simp [infos, addChars, hn0]
  obtain ⟨t, h1, h2⟩ := C54_wellformed_partial { root := .elem ⟨[], n⟩ [] [] false l [] } ⟨by simp, ⟨trivial, trivial, by simp⟩, by simp,
    ⟨by
      simp only [Node.Ok]
      exact ⟨⟨Or.inl rfl, hn⟩, by simp, by simp [IsS], by simp [IsS], by simp, o3, o1⟩, rfl⟩, ⟨trivial, trivial, by simp⟩⟩ (usual_of _ <| by
    simp only [Node.Usual]
    exact ⟨by simp, o2⟩)
  refine ⟨t, ?_, ?_⟩
  · have e : Doc.src { root := .elem ⟨[], n⟩ [] [] false l [] } = ch%'<' :: (n ++ (ch%'>' :: (emitCDATA s ++ (b!"</" ++ (n ++ b!">"))))) := by
      simp [Doc.src, declSrc, doctypeSrc, Node.src, qname, srcs, e1]
    rw [← e]
    exact h1
  · rw [h2]
    have hres : resolveElement [⟨⟨[], n⟩, []⟩] ⟨[], n⟩ = ⟨[], n⟩ := by
      unfold resolveElement
      split
      · rfl
      · rfl
    simp [Node.info, Grammar.resolves, Info.resolve, hr, hres]

/-! ### Comments -/

/-- C73: a comment field is written exactly if it does not contain `--`, and then read as the comment, with a space after a final `-`. -/
theorem C73_comment (s : Bytes) (hne : s ≠ []) :
    (commentField s = none ↔ (b!"--") <:+: s) ∧
    ∀ t, commentField s = some t → ∀ r, rawToken ⟨t ++ r, none⟩ = .ok (.comment (s ++ if (b!"-") <:+ s then b!" " else []), ⟨r, none⟩) := by
  have hc : EncTok.contains s (b!"--") = true ↔ (b!"--") <:+: s := by
    unfold EncTok.contains
    rw [← not_iff_not, ← EncTok.index_none]
    cases index s (b!"--") <;> simp
  have hl : s.getLast? = some ch%'-' ↔ (b!"-") <:+ s := by
    rw [List.getLast?_eq_some_iff]
    exact ⟨fun ⟨t, h⟩ => ⟨t, h.symm⟩, fun ⟨t, h⟩ => ⟨t, h.symm⟩⟩
  unfold commentField
  rw [if_neg hne]
  constructor
  · rw [← hc]
    split <;> simp_all
  · intro t ht r
    split at ht
    · cases ht
    · rename_i hn
      rw [hc] at hn
      injection ht with ht
      subst ht
      have key : ∀ x, (Node.comment x).Ok → rawToken ⟨b!"<!--" ++ (x ++ b!"-->") ++ r, none⟩ = .ok (.comment x, ⟨r, none⟩) := fun x hx => by
        rw [← rawToken_comment x r hx]
        rfl
      by_cases hd : (b!"-") <:+ s
      · rw [if_pos (hl.2 hd), if_pos hd]
        rw [show b!"<!--" ++ (s ++ (b!" " ++ b!"-->")) = b!"<!--" ++ ((s ++ b!" ") ++ b!"-->") by simp]
        refine key _ ?_
        rw [Node.Ok]
        refine ⟨fun hi => ?_, fun hs => ?_⟩
        · obtain ⟨u, v, e⟩ := hi
          rcases List.eq_nil_or_concat v with rfl | ⟨v', y, rfl⟩
          · rw [List.append_nil] at e
            have := congrArg List.getLast? e
            simp at this
          · rw [List.concat_eq_append, ← List.append_assoc] at e
            exact hn ⟨u, v', (List.append_inj' e rfl).1⟩
        · obtain ⟨u, e⟩ := hs
          have := congrArg List.getLast? e
          simp at this
      · rw [if_neg (fun h => hd (hl.1 h)), if_neg hd, List.append_nil, List.nil_append]
        refine key s ?_
        rw [Node.Ok]
        exact ⟨hn, hd⟩

/-- C73 as first stated, for comments: what is written is read back. -/
def C73_comment_statement : Prop := ∀ s t, s ≠ [] → commentField s = some t → rawToken ⟨t, none⟩ = .ok (.comment s, ⟨[], none⟩)

/-- False of the code: a comment that ends in `-` comes back with a space. -/
theorem C73_comment_refuted : ¬ C73_comment_statement := fun h => absurd (h (b!"a-") (b!"<!--a- -->") (by decide) (by decide +kernel)) (by decide +kernel)

/-- C73 as first stated: what is written for a `,cdata` field is read back. -/
def C73_statement : Prop := ∀ s : Bytes, ∃ k, chars k ⟨emitCDATA s, none⟩ = some (s, ⟨[], none⟩)

/-- False of the code: control characters are written as they are, and the decoder rejects them. -/
theorem C73_refuted : ¬ C73_statement := by
  intro h
  obtain ⟨k, hk⟩ := h [1]
  cases k with
  | zero => exact absurd hk (by decide +kernel)
  | succ k =>
    rw [chars, show rawToken ⟨emitCDATA [1], none⟩ = .error (.syntaxError "illegal character code") by decide +kernel] at hk
    cases hk

/-! ### Examples -/

example : emitCDATA (b!"a<b]]>c]]]>") = b!"<![CDATA[a<b]]]]><![CDATA[>c]]]]]><![CDATA[>]]>" := by decide +kernel

example : IsXmlText (b!"a<b]]>c]]]>") := by decide +kernel

example : chars 3 ⟨emitCDATA (b!"a\r\nb]]>c]]]>") ++ b!"</x>", none⟩ = some (b!"a\nb]]>c]]]>", ⟨b!"</x>", none⟩) := by decide +kernel

example : ¬ IsXmlText (b!"a]]>" ++ [0xFF]) := by decide +kernel

example : IsNCName (b!"Text") := by unfold IsNCName; decide +kernel

example : commentField (b!"a - b-") = some (b!"<!--a - b- -->") ∧ commentField (b!"a--b") = none := by decide +kernel

end Verif.Cdata
