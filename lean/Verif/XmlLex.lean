import Verif.XmlPrint
import Verif.XmlNsProps

/-!
Reading back what the printer writes: names, attributes, tags and text of the printed pieces as raw tokens.
-/
namespace Verif.Xml

open Verif.Utf8

/-! ### Specification -/

/-- A name without a colon. -/
def NCName (s : Bytes) : Prop := isName s = true ∧ ch%':' ∉ s

instance (s : Bytes) : Decidable (NCName s) := by unfold NCName; infer_instance

/-- A name as written in a tag and the prefix and local part it consists of. -/
def WrittenName (q : Bytes) (n : Name) : Prop := isName q = true ∧ splitName q = some n

/-- An attribute as written and the raw attribute it is read as. -/
def WrittenAttr (a : TagAttr) (b : Attr) : Prop := WrittenName a.name b.name ∧ b.value = clean a.value

/-- A character that stands for itself in character data. -/
def PlainText (b : Bytes) : Prop := (∀ x ∈ b, PlainByte x) ∧ IsXmlText b

/-- White space without carriage returns. -/
def IsWs (b : Bytes) : Prop := ∀ x ∈ b, x = ch%' ' ∨ x = ch%'\t' ∨ x = ch%'\n'

/-- Character data, left out if empty. -/
def flush (acc : Bytes) : List Token := if acc = [] then [] else [.charData acc]

/-- The raw token of a name as written, `⟨[], q⟩` if it is not one. -/
def nameOf (q : Bytes) : Name := (splitName q).getD ⟨[], q⟩

/-- The raw attribute of an attribute as written. -/
def attrOf (a : TagAttr) : Attr := ⟨nameOf a.name, clean a.value⟩

/-- The raw tokens up to a `<` that is the last byte of the input. -/
def chunkRun : Nat → Raw → List Token
  | 0, _ => []
  | k + 1, st =>
    if st = ⟨[ch%'<'], none⟩ then []
    else
      match rawToken st with
      | .error _ => []
      | .ok (t, st') => t :: chunkRun k st'

/-- The raw tokens of content that is followed by a tag. -/
def chunkToks (b : Bytes) : List Token := chunkRun (2 * b.length + 2) ⟨b ++ [ch%'<'], none⟩

/-- The raw tokens of a list of pieces; adjacent text is one token. -/
def lexOuts : Bytes → List Out → List Token
  | acc, [] => flush acc
  | acc, .start q as :: l => flush acc ++ .startElement (nameOf q) (as.map attrOf) :: lexOuts [] l
  | acc, .stop q :: l => flush acc ++ .endElement (nameOf q) :: lexOuts [] l
  | acc, .text b :: l => lexOuts (acc ++ clean b) l
  | acc, .str b :: l => lexOuts (acc ++ clean b) l
  | acc, .raw b :: l => lexOuts (acc ++ b) l
  | acc, .inner b :: l => flush acc ++ chunkToks b ++ lexOuts [] l

/-- Reading the tokens `ts` takes the raw decoder from one state to another. -/
inductive RawSteps : Raw → List Token → Raw → Prop where
  | nil (st : Raw) : RawSteps st [] st
  | cons (st st1 st2 : Raw) (t : Token) (ts : List Token) :
      rawToken st = .ok (t, st1) → RawSteps st1 ts st2 → RawSteps st (t :: ts) st2

/-- Content of an element: followed by any tag it is read as whole tokens, in which start and end tags match and no prefix
is declared empty. -/
structure Chunk (b : Bytes) : Prop where
  steps : ∀ r, RawSteps ⟨b ++ ch%'<' :: r, none⟩ (chunkToks b) ⟨ch%'<' :: r, none⟩
  nest : nesting [] (chunkToks b) = some []
  decl : ∀ n as, Token.startElement n as ∈ chunkToks b → ∀ a ∈ as, ¬ BadDecl a

/-- Content written as it is stands between tags, with no other text next to it. -/
def Chain : Bytes → List Out → Prop
  | _, [] => True
  | _, .start _ _ :: l => Chain [] l
  | _, .stop _ :: l => Chain [] l
  | acc, .text b :: l => Chain (acc ++ clean b) l
  | acc, .str b :: l => Chain (acc ++ clean b) l
  | acc, .raw b :: l => Chain (acc ++ b) l
  | acc, .inner _ :: l => acc = [] ∧ (∃ x, outBytes l = ch%'<' :: x) ∧ Chain [] l

/-- The names of a piece are names, and text written as it is contains no markup. -/
def OutOk : Out → Prop
  | .start q as => WrittenName q (nameOf q) ∧ ∀ a ∈ as, WrittenName a.name (nameOf a.name)
  | .stop q => WrittenName q (nameOf q)
  | .raw b => PlainText b
  | .inner b => Chunk b
  | _ => True

/-! ### Runes of concatenations -/

theorem runes_flatMap_append {α : Type} (f : α → Nat × Bytes) (l : List α) (h : ∀ x ∈ l, IsChunk (f x).1 (f x).2)
    (t : Bytes) : runes (l.flatMap (fun x => (f x).2) ++ t) = l.map f ++ runes t := by
  induction l with
  | nil => rfl
  | cons x l ih =>
    rw [List.flatMap_cons, List.append_assoc, runes_chunk (h x (by simp)), ih (fun y hy => h y (by simp [hy]))]
    rfl

/-- Every rune is well formed. -/
def WellFormed (s : Bytes) : Prop := ∀ p ∈ runes s, ¬ (p.1 = 0xFFFD ∧ p.2.length = 1)

theorem wf_chunk (s : Bytes) (h : WellFormed s) : ∀ p ∈ runes s, IsChunk p.1 p.2 := by
  intro p hp
  rcases runes_mem s p hp with ⟨h1, c, h2, _⟩ | ⟨h1, _⟩
  · exact absurd ⟨h1, by rw [h2]; rfl⟩ (h p hp)
  · exact h1

theorem runes_append (s t : Bytes) (h : WellFormed s) : runes (s ++ t) = runes s ++ runes t := by
  have h1 := runes_flatMap_append (fun p => p) (runes s) (wf_chunk s h) t
  rw [runes_flatten] at h1
  rw [h1]
  simp

theorem runes_ascii (s : Bytes) (h : ∀ b ∈ s, b.toNat < 0x80) : runes s = s.map fun b => (b.toNat, [b]) := by
  have h1 := runes_flatMap_append (fun b : UInt8 => (b.toNat, [b])) s (fun b hb => isChunk_ascii b (h b hb)) []
  simp only [List.append_nil, runes_nil] at h1
  rw [← h1]
  congr 1
  induction s with
  | nil => rfl
  | cons b s ih =>
    rw [List.flatMap_cons, ← ih (fun x hx => h x (by simp [hx]))]
    · rfl
    · have := runes_flatMap_append (fun b : UInt8 => (b.toNat, [b])) s
        (fun b hb => isChunk_ascii b (h b (by simp [hb]))) []
      simpa using this

theorem xmlText_wf {s : Bytes} (h : IsXmlText s) : WellFormed s := fun p hp => (h p hp).2

theorem xmlText_append {s t : Bytes} (hs : IsXmlText s) (ht : IsXmlText t) : IsXmlText (s ++ t) := by
  unfold IsXmlText
  rw [runes_append s t (xmlText_wf hs)]
  intro p hp
  rcases List.mem_append.1 hp with hp | hp
  · exact hs p hp
  · exact ht p hp

/-! ### Names -/

theorem isName_ne {s : Bytes} (h : isName s = true) : s ≠ [] := by
  rintro rfl; revert h; decide

/-- All runes of the string may follow the first one in a name. -/
def TailOk (s : Bytes) : Prop := nameTail (runes s) = true

theorem isName_split {s : Bytes} (h : isName s = true) : TailOk s := by
  unfold TailOk
  unfold isName at h
  split at h
  · cases h
  · rename_i r c l he
    rw [he]
    simp only [Bool.and_eq_true] at h
    unfold nameTail
    rw [List.all_cons]
    simp only [Bool.and_eq_true, Bool.or_eq_true]
    exact ⟨⟨h.1.1, Or.inl h.1.2⟩, h.2⟩

theorem tail_wf {s : Bytes} (h : TailOk s) : WellFormed s := by
  intro p hp hc
  have := List.all_eq_true.1 h p hp
  obtain ⟨r, c⟩ := p
  simp only [Bool.and_eq_true] at this
  have := this.1
  simp at this hc
  exact this.elim (fun h => h hc.1) (fun h => h hc.2)

theorem isName_append {s t : Bytes} (hs : isName s = true) (ht : TailOk t) : isName (s ++ t) = true := by
  have hr := runes_append s t (tail_wf (isName_split hs))
  unfold isName at hs ⊢
  rw [hr]
  split at hs
  · cases hs
  · rename_i r c l he
    rw [he]
    simp only [List.cons_append, Bool.and_eq_true] at hs ⊢
    refine ⟨hs.1, ?_⟩
    unfold nameTail
    rw [List.all_append, Bool.and_eq_true]
    exact ⟨hs.2, ht⟩

theorem tail_append {s t : Bytes} (hs : TailOk s) (ht : TailOk t) : TailOk (s ++ t) := by
  unfold TailOk
  rw [runes_append s t (tail_wf hs)]
  unfold nameTail
  rw [List.all_append, Bool.and_eq_true]
  exact ⟨hs, ht⟩

/-- ASCII characters of names. -/
theorem tail_ascii (s : Bytes) (h : ∀ b ∈ s, isNameByte b = true) : TailOk s := by
  have key : ∀ b : UInt8, isNameByte b = true →
      b.toNat < 0x80 ∧ (inTable firstTable b.toNat || inTable secondTable b.toNat) = true := by
    have : ∀ n : Fin 256, isNameByte (UInt8.ofNat n.val) = true →
      n.val < 0x80 ∧ (inTable firstTable n.val || inTable secondTable n.val) = true := by decide +kernel
    intro b hb
    have := this ⟨b.toNat, b.toNat_lt⟩
    simp only [UInt8.ofNat_toNat] at this
    exact this hb
  unfold TailOk
  rw [runes_ascii s (fun b hb => (key b (h b hb)).1)]
  unfold nameTail
  rw [List.all_eq_true]
  intro p hp
  obtain ⟨b, hb, rfl⟩ := List.mem_map.1 hp
  have := key b (h b hb)
  dsimp only
  rw [this.2]
  simp
  omega

theorem isName_byte (b : UInt8) (h : isNameByte b = true) (h1 : inTable firstTable b.toNat = true) : isName [b] = true := by
  have h2 : b.toNat < 0x80 := by
    unfold isNameByte at h
    simp at h
    rcases h with (((((h | h) | h) | h) | h) | h) | h
    · omega
    · omega
    · omega
    all_goals (subst h; decide)
  unfold isName
  rw [runes_ascii [b] (by simpa using h2)]
  simp only [List.map_cons, List.map_nil, h1, nameTail, List.all_nil]
  simp
  omega

theorem isName_bytes {s : Bytes} (h : isName s = true) : ∀ b ∈ s, nameOrHigh b = true := by
  have ht := isName_split h
  have hw := tail_wf ht
  intro b hb
  rw [← runes_flatten s] at hb
  obtain ⟨p, hp, hb⟩ := List.mem_flatMap.1 hb
  have hc := wf_chunk s hw p hp
  by_cases hr : p.1 < 0x80
  · obtain ⟨c, hc', hcn⟩ := chunk_single hc hr
    rw [hc'] at hb
    simp at hb
    subst hb
    have hall := List.all_eq_true.1 ht p hp
    obtain ⟨r, c'⟩ := p
    simp only [Bool.and_eq_true] at hall
    have hin := hall.2
    dsimp only at hcn
    rw [← hcn] at hin
    have : ∀ n : Fin 256, (inTable firstTable n.val || inTable secondTable n.val) = true →
        n.val < 0x80 → isNameByte (UInt8.ofNat n.val) = true := by decide +kernel
    have := this ⟨b.toNat, b.toNat_lt⟩
    simp only [UInt8.ofNat_toNat] at this
    unfold nameOrHigh
    rw [this hin (by dsimp only at hr; omega)]
    simp
  · have := chunk_high hc (hw p hp) (by omega) b hb
    unfold nameOrHigh
    simp [this]

theorem colon_first : isName [ch%':'] = true := isName_byte _ (by decide) (by decide +kernel)
theorem underscore_first : isName [ch%'_'] = true := isName_byte _ (by decide) (by decide +kernel)

theorem isName_join {p l : Bytes} (hp : isName p = true) (hl : isName l = true) : isName (p ++ ch%':' :: l) = true :=
  isName_append hp (tail_append (s := [ch%':']) (isName_split colon_first) (isName_split hl))

theorem takeWhile_colon {p : Bytes} (h : ch%':' ∉ p) : ∀ b ∈ p, (b != ch%':') = true := by
  intro b hb
  simp only [bne_iff_ne]
  rintro rfl
  exact h hb

theorem splitName_join {p l : Bytes} (hp : NCName p) (hl : NCName l) : splitName (p ++ ch%':' :: l) = some ⟨p, l⟩ := by
  unfold splitName
  have h1 := takeWhile_colon hp.2
  rw [List.dropWhile_append_of_pos h1, List.takeWhile_append_of_pos h1, List.dropWhile_cons_of_neg (by simp),
    List.takeWhile_cons_of_neg (by simp)]
  dsimp only
  rw [if_neg hl.2, if_neg (by simp [isName_ne hp.1, isName_ne hl.1])]
  simp

theorem dropWhile_all {α : Type} (p : α → Bool) (l : List α) (h : ∀ x ∈ l, p x = true) : l.dropWhile p = [] := by
  have := List.dropWhile_append_of_pos (l₂ := []) h
  simpa using this

theorem splitName_nc {l : Bytes} (hl : NCName l) : splitName l = some ⟨[], l⟩ := by
  unfold splitName
  rw [dropWhile_all _ _ (takeWhile_colon hl.2)]

theorem written_join {p l : Bytes} (hp : NCName p) (hl : NCName l) : WrittenName (p ++ ch%':' :: l) ⟨p, l⟩ :=
  ⟨isName_join hp.1 hl.1, splitName_join hp hl⟩

theorem written_nc {l : Bytes} (hl : NCName l) : WrittenName l ⟨[], l⟩ := ⟨hl.1, splitName_nc hl⟩

theorem written_nameOf {q : Bytes} {n : Name} (h : WrittenName q n) : nameOf q = n := by
  unfold nameOf; rw [h.2]; rfl

theorem written_ok {q : Bytes} {n : Name} (h : WrittenName q n) : WrittenName q (nameOf q) := by
  rw [written_nameOf h]; exact h

theorem nsname_written {q : Bytes} {n : Name} (h : WrittenName q n) (b : UInt8) (r : Bytes) (hb : nameOrHigh b = false) :
    nsname (q ++ b :: r) = .ok (some (n, b :: r)) := by
  unfold nsname readXmlName
  rw [readName_append q r b (isName_bytes h.1) hb]
  have := isName_ne h.1
  cases q with
  | nil => exact absurd rfl this
  | cons c q =>
    dsimp only
    rw [if_pos h.1]
    dsimp only
    rw [h.2]

/-! ### Attributes -/

theorem skipSpace_cons (b : UInt8) (r : Bytes) (h : isSpace b = false) : skipSpace (b :: r) = b :: r :=
  List.dropWhile_cons_of_neg (by simp [h])

theorem readAttr_written {a : TagAttr} (h : WrittenName a.name (nameOf a.name)) (r : Bytes) :
    readAttr (a.name ++ (b!"=\"" ++ (escapeString a.value ++ ch%'"' :: r))) = .ok (attrOf a, r) := by
  unfold readAttr
  rw [show a.name ++ (b!"=\"" ++ (escapeString a.value ++ ch%'"' :: r)) =
    a.name ++ ch%'=' :: (ch%'"' :: (escapeString a.value ++ ch%'"' :: r)) from rfl,
    nsname_written h _ _ (by decide)]
  dsimp only
  rw [skipSpace_cons _ _ (by decide)]
  dsimp only
  rw [if_neg (by simp), skipSpace_cons _ _ (by decide)]
  unfold attrval
  dsimp only
  rw [if_pos (Or.inl rfl), C23_attr_any a.value r _ (Or.inl rfl)]
  rfl

theorem attrBytes_append (a : TagAttr) (r : Bytes) :
    attrBytes a ++ r = ch%' ' :: (a.name ++ (b!"=\"" ++ (escapeString a.value ++ ch%'"' :: r))) := by
  unfold attrBytes
  simp

theorem isName_head {s : Bytes} (h : isName s = true) : ∃ b t, s = b :: t ∧ nameOrHigh b = true := by
  cases s with
  | nil => exact absurd rfl (isName_ne h)
  | cons b t => exact ⟨b, t, rfl, isName_bytes h b (by simp)⟩

theorem nameByte_not (b : UInt8) (h : nameOrHigh b = true) :
    isSpace b = false ∧ b ≠ ch%'/' ∧ b ≠ ch%'>' ∧ b ≠ ch%'?' ∧ b ≠ ch%'!' := by
  have : ∀ n : Fin 256, nameOrHigh (UInt8.ofNat n.val) = true →
    isSpace (UInt8.ofNat n.val) = false ∧ UInt8.ofNat n.val ≠ ch%'/' ∧ UInt8.ofNat n.val ≠ ch%'>' ∧
      UInt8.ofNat n.val ≠ ch%'?' ∧ UInt8.ofNat n.val ≠ ch%'!' := by decide +kernel
  have := this ⟨b.toNat, b.toNat_lt⟩
  simp only [UInt8.ofNat_toNat] at this
  exact this h

theorem attrLoop_written (as : List TagAttr) (h : ∀ a ∈ as, WrittenName a.name (nameOf a.name)) (n : Nat) (hn : as.length < n)
    (acc : List Attr) (r : Bytes) :
    attrLoop n acc (as.flatMap attrBytes ++ ch%'>' :: r) = .ok (acc ++ as.map attrOf, false, r) := by
  induction as generalizing n acc with
  | nil =>
    cases n with
    | zero => simp at hn
    | succ n =>
      simp only [List.flatMap_nil, List.nil_append, attrLoop]
      rw [skipSpace_cons _ _ (by decide)]
      dsimp only
      rw [if_neg (by decide), if_pos rfl]
      simp
  | cons a as ih =>
    cases n with
    | zero => simp at hn
    | succ n =>
      have ha := h a (by simp)
      simp only [List.flatMap_cons, attrLoop]
      rw [List.append_assoc, attrBytes_append]
      obtain ⟨b, t, hbt, hb⟩ := isName_head ha.1
      have hnb := nameByte_not b hb
      have hsk : skipSpace (ch%' ' :: (a.name ++ (b!"=\"" ++ (escapeString a.value ++ ch%'"' :: (as.flatMap attrBytes ++ ch%'>' :: r))))) =
          a.name ++ (b!"=\"" ++ (escapeString a.value ++ ch%'"' :: (as.flatMap attrBytes ++ ch%'>' :: r))) := by
        unfold skipSpace
        rw [List.dropWhile_cons_of_pos (by decide), hbt]
        exact skipSpace_cons _ _ hnb.1
      have hr := readAttr_written ha (as.flatMap attrBytes ++ ch%'>' :: r)
      rw [hsk]
      rw [hbt] at hr ⊢
      simp only [List.cons_append] at hr ⊢
      rw [if_neg hnb.2.1, if_neg hnb.2.2.1, hr]
      dsimp only
      rw [ih (fun x hx => h x (by simp [hx])) n (by simp at hn; omega)]
      simp

theorem flatMap_attrBytes_length (as : List TagAttr) : as.length ≤ (as.flatMap attrBytes).length := by
  induction as with
  | nil => simp
  | cons a as ih =>
    rw [List.flatMap_cons, List.length_append]
    have : 1 ≤ (attrBytes a).length := by unfold attrBytes; simp
    simp only [List.length_cons]
    omega

/-! ### Tags -/

theorem attrs_head (as : List TagAttr) (r : Bytes) : ∃ b t, as.flatMap attrBytes ++ ch%'>' :: r = b :: t ∧ nameOrHigh b = false := by
  cases as with
  | nil => exact ⟨_, _, rfl, by decide⟩
  | cons a as =>
    rw [List.flatMap_cons, List.append_assoc, attrBytes_append]
    exact ⟨_, _, rfl, by decide⟩

/-- A printed start tag is read as a start element. -/
theorem rawToken_start (q : Bytes) (as : List TagAttr) (h : OutOk (.start q as)) (r : Bytes) :
    rawToken ⟨(Out.start q as).bytes ++ r, none⟩ = .ok (.startElement (nameOf q) (as.map attrOf), ⟨r, none⟩) := by
  obtain ⟨hq, ha⟩ := h
  obtain ⟨b, t, hbt, hb⟩ := isName_head hq.1
  have hnb := nameByte_not b hb
  have hbytes : (Out.start q as).bytes ++ r = ch%'<' :: b :: (t ++ (as.flatMap attrBytes ++ ch%'>' :: r)) := by
    simp [Out.bytes, hbt]
  unfold rawToken
  simp only [hbytes]
  rw [if_neg (by simp), if_neg hnb.2.1, if_neg hnb.2.2.2.1, if_neg hnb.2.2.2.2]
  unfold startTag
  have he : b :: (t ++ (as.flatMap attrBytes ++ ch%'>' :: r)) = q ++ (as.flatMap attrBytes ++ ch%'>' :: r) := by
    rw [hbt]; rfl
  rw [he]
  obtain ⟨c, u, hc, hcn⟩ := attrs_head as r
  have hns := nsname_written hq c u hcn
  rw [← hc] at hns
  rw [hns]
  dsimp only
  rw [attrLoop_written as ha _ (by
    have := flatMap_attrBytes_length as
    simp only [List.length_append, List.length_cons]; omega)]
  simp

/-- A printed end tag is read as an end element. -/
theorem rawToken_stop (q : Bytes) (h : OutOk (.stop q)) (r : Bytes) :
    rawToken ⟨(Out.stop q).bytes ++ r, none⟩ = .ok (.endElement (nameOf q), ⟨r, none⟩) := by
  have hbytes : (Out.stop q).bytes ++ r = ch%'<' :: ch%'/' :: (q ++ ch%'>' :: r) := by simp [Out.bytes]
  unfold rawToken
  simp only [hbytes]
  rw [if_neg (by simp), if_pos trivial]
  unfold endTag
  rw [nsname_written h _ _ (by decide)]
  dsimp only
  rw [skipSpace_cons _ _ (by decide)]
  dsimp only
  rw [if_neg (by simp)]

/-! ### Text -/

/-- Pieces of text waiting to be read: what was written, and what it stands for. -/
structure Pending (w d : Bytes) : Prop where
  ex : ∃ ps : List (Bytes × Bytes), w = ps.flatMap (·.1) ∧ d = ps.flatMap (·.2) ∧ ∀ x ∈ ps, Piece x.1 x.2
  ok : IsXmlText d
  empty : d = [] ↔ w = []

theorem pending_nil : Pending [] [] := ⟨⟨[], rfl, rfl, by simp⟩, xmlText_nil, by simp⟩

theorem pending_append {w d w' d' : Bytes} (h : Pending w d) (h' : Pending w' d') : Pending (w ++ w') (d ++ d') := by
  obtain ⟨⟨ps, h1, h2, h3⟩, h4, h5⟩ := h
  obtain ⟨⟨ps', h1', h2', h3'⟩, h4', h5'⟩ := h'
  refine ⟨⟨ps ++ ps', ?_, ?_, ?_⟩, xmlText_append h4 h4', ?_⟩
  · rw [List.flatMap_append, h1, h1']
  · rw [List.flatMap_append, h2, h2']
  · intro x hx
    rcases List.mem_append.1 hx with hx | hx
    · exact h3 x hx
    · exact h3' x hx
  · simp only [List.append_eq_nil_iff, h5, h5']

theorem cleanRune_ne (s : Bytes) (p : Nat × Bytes) (hp : p ∈ runes s) : cleanRune p ≠ [] := by
  unfold cleanRune
  split
  · rcases runes_mem s p hp with ⟨_, c, h, _⟩ | ⟨h, _⟩
    · rw [h]; simp
    · exact h.1
  · decide

theorem pending_escaped (f : Nat × Bytes → Bytes) (s : Bytes) (h : ∀ p ∈ runes s, Piece (f p) (cleanRune p))
    (hne : ∀ p ∈ runes s, f p ≠ []) : Pending ((runes s).flatMap f) (clean s) := by
  refine ⟨⟨(runes s).map fun p => (f p, cleanRune p), ?_, ?_, ?_⟩, xmlText_clean s, ?_⟩
  · rw [List.flatMap_map]
  · rw [List.flatMap_map]; rfl
  · intro x hx
    obtain ⟨p, hp, rfl⟩ := List.mem_map.1 hx
    exact h p hp
  · unfold clean
    cases hr : runes s with
    | nil => simp
    | cons p l =>
      have h1 := hne p (by rw [hr]; simp)
      have h2 := cleanRune_ne s p (by rw [hr]; simp)
      rw [List.flatMap_cons, List.flatMap_cons]
      simp [h1, h2]

theorem escDefault_ne (s : Bytes) (p : Nat × Bytes) (hp : p ∈ runes s) : escDefault p.1 p.2 ≠ [] := by
  rw [escDefault_eq]; exact cleanRune_ne s p hp

theorem rune_ne (s : Bytes) (p : Nat × Bytes) (hp : p ∈ runes s) : p.2 ≠ [] := by
  rcases runes_mem s p hp with ⟨_, c, h, _⟩ | ⟨h, _⟩
  · rw [h]; simp
  · exact h.1

theorem escTextRune_ne (nl : Bool) (s : Bytes) (p : Nat × Bytes) (hp : p ∈ runes s) : escTextRune nl p ≠ [] := by
  have h1 := escDefault_ne s p hp
  have h2 := rune_ne s p hp
  unfold escTextRune
  repeat' split
  all_goals first | exact h1 | exact h2 | simp

theorem escStringRune_ne (s : Bytes) (p : Nat × Bytes) (hp : p ∈ runes s) : escStringRune p ≠ [] := by
  have h1 := escDefault_ne s p hp
  unfold escStringRune
  repeat' split
  all_goals first | exact h1 | simp

theorem pending_text (nl : Bool) (s : Bytes) : Pending (escapeText nl s) (clean s) :=
  pending_escaped (escTextRune nl) s (escText_piece nl s) (escTextRune_ne nl s)

theorem pending_str (s : Bytes) : Pending (escapeString s) (clean s) :=
  pending_escaped escStringRune s (escString_piece s) (escStringRune_ne s)

theorem pending_raw {b : Bytes} (h : PlainText b) : Pending b b :=
  ⟨⟨[(b, b)], by simp, by simp, by simpa using Piece.plain b h.1⟩, h.2, Iff.rfl⟩

theorem pending_noLt {w d : Bytes} (h : Pending w d) : ∀ b ∈ w, b ≠ ch%'<' := by
  obtain ⟨⟨ps, h1, _, h3⟩, _, _⟩ := h
  have := inert_bytes (inert_pieces (·.1) (·.2) ps h3)
  rw [h1]
  exact fun b hb => (this b hb).1

/-- Pending text is read as one token. -/
theorem text_pending {w d : Bytes} (h : Pending w d) (r : Bytes) (hr : EndsText r) : text none false (w ++ r) = .ok (d, r) := by
  obtain ⟨⟨ps, h1, h2, h3⟩, hok, _⟩ := h
  obtain ⟨b0, b1, _, e⟩ := textL_pieces none (by simp) (·.1) (·.2) ps h3 0 0 (by decide) [] r
  have hend : ∀ b0 b1 buf, textL none false b0 b1 buf r = .ok (buf, r) := by
    intro b0 b1 buf
    rcases hr with rfl | ⟨r', rfl⟩
    · exact textL_nil ..
    · exact textL_lt ..
  unfold text
  unfold textL at e hend
  rw [h1, e, hend]
  simp only [List.nil_append]
  rw [← h2, (checkChars_none _).2 hok]

theorem rawToken_text {w d : Bytes} (h : Pending w d) (hne : w ≠ []) (r : Bytes) (hr : EndsText r) :
    rawToken ⟨w ++ r, none⟩ = .ok (.charData d, ⟨r, none⟩) := by
  have hlt := pending_noLt h
  have ht := text_pending h r hr
  cases w with
  | nil => exact absurd rfl hne
  | cons b w =>
    unfold rawToken
    dsimp only [List.cons_append] at ht ⊢
    rw [if_pos (hlt b (by simp)), ht]

/-! ### Lists of pieces -/

theorem rawSteps_flush {w d : Bytes} (h : Pending w d) (r : Bytes) (hr : EndsText r) (ts : List Token) (st : Raw)
    (hs : RawSteps ⟨r, none⟩ ts st) : RawSteps ⟨w ++ r, none⟩ (flush d ++ ts) st := by
  unfold flush
  by_cases hd : d = []
  · rw [if_pos hd, h.empty.1 hd]; exact hs
  · rw [if_neg hd]
    exact .cons _ _ _ _ _ (rawToken_text h (fun hw => hd (h.empty.2 hw)) r hr) hs

theorem rawSteps_append {st st1 st2 : Raw} {ts ts' : List Token} (h : RawSteps st ts st1) (h' : RawSteps st1 ts' st2) :
    RawSteps st (ts ++ ts') st2 := by
  induction h with
  | nil => exact h'
  | cons _ _ _ _ _ h1 _ ih => exact .cons _ _ _ _ _ h1 (ih h')

theorem lex_outs (l : List Out) (hl : ∀ o ∈ l, OutOk o) (w d : Bytes) (h : Pending w d) (hc : Chain d l) (rest : Bytes)
    (hr : EndsText rest) : RawSteps ⟨w ++ (outBytes l ++ rest), none⟩ (lexOuts d l) ⟨rest, none⟩ := by
  induction l generalizing w d with
  | nil =>
    have := rawSteps_flush h rest hr [] ⟨rest, none⟩ (.nil _)
    rw [List.append_nil] at this
    exact this
  | cons o l ih =>
    have ho := hl o (by simp)
    have hl' : ∀ o ∈ l, OutOk o := fun x hx => hl x (by simp [hx])
    have hb : outBytes (o :: l) ++ rest = o.bytes ++ (outBytes l ++ rest) := by
      unfold outBytes; rw [List.flatMap_cons, List.append_assoc]
    rw [hb]
    cases o with
    | start q as =>
      simp only [lexOuts]
      refine rawSteps_flush h _ (Or.inr ⟨_, rfl⟩) _ _ (.cons _ _ _ _ _ (rawToken_start q as ho _) ?_)
      exact ih hl' [] [] pending_nil hc
    | stop q =>
      simp only [lexOuts]
      refine rawSteps_flush h _ (Or.inr ⟨_, rfl⟩) _ _ (.cons _ _ _ _ _ (rawToken_stop q ho _) ?_)
      exact ih hl' [] [] pending_nil hc
    | text b =>
      simp only [lexOuts, Out.bytes]
      rw [← List.append_assoc]
      exact ih hl' _ _ (pending_append h (pending_text false b)) hc
    | str b =>
      simp only [lexOuts, Out.bytes]
      rw [← List.append_assoc]
      exact ih hl' _ _ (pending_append h (pending_str b)) hc
    | raw b =>
      simp only [lexOuts, Out.bytes]
      rw [← List.append_assoc]
      exact ih hl' _ _ (pending_append h (pending_raw ho)) hc
    | inner b =>
      obtain ⟨rfl, ⟨x, hx⟩, hc⟩ := hc
      have hw := h.empty.1 rfl
      subst hw
      simp only [lexOuts, Out.bytes, flush, if_pos, List.nil_append]
      have hi := ih hl' [] [] pending_nil hc
      rw [hx] at hi ⊢
      exact rawSteps_append (ho.steps _) hi

/-- Reading back the bytes of a list of pieces gives the tokens of the pieces. -/
theorem lex_pieces (l : List Out) (hl : ∀ o ∈ l, OutOk o) (hc : Chain [] l) (rest : Bytes) (hr : EndsText rest) :
    RawSteps ⟨outBytes l ++ rest, none⟩ (lexOuts [] l) ⟨rest, none⟩ :=
  lex_outs l hl [] [] pending_nil hc rest hr

theorem isWs_plain {b : Bytes} (h : IsWs b) : PlainText b := by
  have hp : ∀ x ∈ b, PlainByte x ∧ x.toNat < 0x80 ∧ IsXmlChar x.toNat := by
    intro x hx
    rcases h x hx with rfl | rfl | rfl <;> decide
  refine ⟨fun x hx => (hp x hx).1, ?_⟩
  unfold IsXmlText
  rw [runes_ascii b (fun x hx => (hp x hx).2.1)]
  intro p hq
  obtain ⟨x, hx, rfl⟩ := List.mem_map.1 hq
  refine ⟨(hp x hx).2.2, ?_⟩
  have := (hp x hx).2.1
  dsimp only
  omega

end Verif.Xml
