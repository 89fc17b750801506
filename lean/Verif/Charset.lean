import Verif.GrammarDecl
import Verif.TreeProps

/-!
C87: documents in other encodings than UTF-8, read with the option `CharsetReader` (`/repo/xml/xml.go` 191-196, 666-688).
-/
namespace Verif.Charset

open Verif Verif.Xml Verif.Utf8 Verif.Grammar Verif.Bind

/-! ### The code -/

/-- A `CharsetReader` (`/repo/xml/xml.go` 191-196): from the name of an encoding and the input after the declaration the text in
UTF-8, or the message of the error.  The reader that it returns is taken as all that it will return; one that fails later is not
covered.  The input is passed with what the decoder has buffered (`d.r`), so that nothing is lost. -/
abbrev Reader := Bytes → Bytes → Except String Bytes

/-- The checks of the XML declaration (`/repo/xml/xml.go` 666-688), with a `CharsetReader`; `r` is the input after it, the result
the input that is read from here on. -/
def declC (cs : Reader) (target data r : Bytes) : Except XErr Bytes :=
  if target = b!"xml" then
    if procInst b!"version" data ≠ [] ∧ procInst b!"version" data ≠ b!"1.0" then
      .error (.other "xml: unsupported version; only version 1.0 is supported")
    else if procInst b!"encoding" data ≠ [] ∧ isUtf8Name (procInst b!"encoding" data) = false then
      match cs (procInst b!"encoding" data) r with
      | .error e => .error (.other ("xml: opening charset: " ++ e))
      | .ok r' => .ok r'
    else .ok r
  else .ok r

/-- `<?target data?>` after `<?` (`/repo/xml/xml.go` 641-690). -/
def piTagC (cs : Reader) (s : Bytes) : Except XErr (Token × Raw) :=
  match readXmlName s with
  | .error e => .error e
  | .ok none => .error (.syntaxError "expected target name after <?")
  | .ok (some (target, r)) =>
    match piLoop 0 [] (skipSpace r) with
    | .error e => .error e
    | .ok (data, r') =>
      match declC cs target data r' with
      | .error e => .error e
      | .ok r2 => .ok (.procInst target data, ⟨r2, none⟩)

/-- `rawToken` (`/repo/xml/xml.go` 588-889) of a decoder with a `CharsetReader`. -/
def rawTokenC (cs : Reader) (st : Raw) : Except XErr (Token × Raw) :=
  match st.toClose with
  | some n => .ok (.endElement n, ⟨st.rest, none⟩)
  | none =>
    match st.rest with
    | [] => .error .eof
    | b :: r =>
      if b ≠ ch%'<' then
        match text none false (b :: r) with
        | .error e => .error e
        | .ok (d, r') => .ok (.charData d, ⟨r', none⟩)
      else
        match r with
        | [] => .error unexpectedEOF
        | c :: r1 =>
          if c = ch%'/' then endTag r1
          else if c = ch%'?' then piTagC cs r1
          else if c = ch%'!' then bangTag r1
          else startTag (c :: r1)

/-- `Token` (`/repo/xml/xml.go` 300-369). -/
def tokenC (cs : Reader) (d : Dec) : Except XErr (Token × Dec) :=
  match rawTokenC cs d.raw with
  | .error e => .error (if e = .eof ∧ d.stk ≠ [] then unexpectedEOF else e)
  | .ok (t, raw') =>
    match cook t d.ns d.stk with
    | .error e => .error e
    | .ok (t', ns', stk') => .ok (t', ⟨raw', ns', stk'⟩)

/-- The first `n` tokens, and the error that ended them, if any, with what is left of the input before and after each. -/
def streamC (cs : Reader) : Nat → Dec → List PTok × Option XErr
  | 0, _ => ([], none)
  | n + 1, d =>
    match tokenC cs d with
    | .error e => ([], some e)
    | .ok (t, d') => (⟨t, d.raw.rest, d'.raw.rest⟩ :: (streamC cs n d').1, (streamC cs n d').2)

/-- The tokens without the input. -/
def tokRunC (cs : Reader) (n : Nat) (d : Dec) : List Token × Option XErr := ((streamC cs n d).1.map (·.tok), (streamC cs n d).2)

/-- `Decode` (`/repo/xml/read.go` 137-161) of a decoder with a `CharsetReader` into a pointer to a zero value of a struct type, from at
most `k` tokens. -/
def decodeC (cs : Reader) (io : FloatIO) (s : Sch) (k : Nat) (doc : Bytes) : Except RErr Val :=
  let r := streamC cs k (Dec.new doc)
  let fin : RErr := match r.2 with
    | some e => .syntaxErr e
    | none => .hang
  match findStart r.1 with
  | none => .error fin
  | some (n, as, rest, ts) =>
    match unmarshalIn io fin (ts.length + 2 * maxDepth + 2) 0 s s.zero n as rest ts with
    | .ok (v, _) => .ok v
    | .error e => .error e

/-! ### Where the option matters -/

/-- The error of a decoder without the option for a document in another encoding (`/repo/xml/xml.go` 675-678). -/
def noReader : XErr := .other "xml: encoding declared but Decoder.CharsetReader is nil"

theorem declC_same (cs : Reader) (target data r : Bytes) :
    checkXmlDecl target data = some noReader ∨
      declC cs target data r = (match checkXmlDecl target data with | some e => .error e | none => .ok r) := by
  unfold checkXmlDecl declC
  split
  · split
    · exact Or.inr rfl
    · split
      · exact Or.inl rfl
      · exact Or.inr rfl
  · exact Or.inr rfl

theorem piTagC_same (cs : Reader) (s : Bytes) : piTag s = .error noReader ∨ piTagC cs s = piTag s := by
  unfold piTag piTagC
  cases readXmlName s with
  | error e => exact Or.inr rfl
  | ok o =>
    cases o with
    | none => exact Or.inr rfl
    | some p =>
      dsimp only
      cases piLoop 0 [] (skipSpace p.2) with
      | error e => exact Or.inr rfl
      | ok q =>
        dsimp only
        rcases declC_same cs p.1 q.1 q.2 with h | h
        · left; rw [h]
        · right; rw [h]; cases checkXmlDecl p.1 q.1 <;> rfl

theorem rawTokenC_same (cs : Reader) (st : Raw) : rawToken st = .error noReader ∨ rawTokenC cs st = rawToken st := by
  obtain ⟨rest, tc⟩ := st
  cases tc with
  | some n => exact Or.inr rfl
  | none =>
    cases rest with
    | nil => exact Or.inr rfl
    | cons b r =>
      unfold rawToken rawTokenC
      dsimp only
      by_cases hb : b ≠ ch%'<'
      · right; rw [if_pos hb, if_pos hb]; cases text none false (b :: r) <;> rfl
      · rw [if_neg hb, if_neg hb]
        cases r with
        | nil => exact Or.inr rfl
        | cons c r1 =>
          dsimp only
          by_cases h1 : c = ch%'/'
          · right; rw [if_pos h1, if_pos h1]
          · rw [if_neg h1, if_neg h1]
            by_cases h2 : c = ch%'?'
            · rw [if_pos h2, if_pos h2]; exact piTagC_same cs r1
            · right; rw [if_neg h2, if_neg h2]

theorem tokenC_same (cs : Reader) (d : Dec) : token d = .error noReader ∨ tokenC cs d = token d := by
  unfold token tokenC
  rcases rawTokenC_same cs d.raw with h | h
  · left; rw [h]; simp [noReader]
  · right; rw [h]; cases rawToken d.raw <;> rfl

/-- The option makes a difference only where the decoder without it refuses the encoding. -/
theorem C87_only (cs : Reader) (n : Nat) (d : Dec) (h : (stream n d).2 ≠ some noReader) : streamC cs n d = stream n d := by
  induction n generalizing d with
  | zero => rfl
  | succ n ih =>
    unfold stream streamC
    rcases tokenC_same cs d with e | e
    · rw [stream, e] at h; exact absurd rfl h
    · rw [e]
      cases ht : token d with
      | error x => rfl
      | ok p =>
        rw [stream, ht] at h
        dsimp only at h ⊢
        rw [ih p.2 h]

/-! ### Declarations of other encodings -/

/-- The name of an encoding (production 81). -/
def IsEncName (n : Bytes) : Prop :=
  (∃ c t, n = c :: t ∧ (65 ≤ c.toNat ∧ c.toNat ≤ 90 ∨ 97 ≤ c.toNat ∧ c.toNat ≤ 122)) ∧
  ∀ c ∈ n, 65 ≤ c.toNat ∧ c.toNat ≤ 90 ∨ 97 ≤ c.toNat ∧ c.toNat ≤ 122 ∨ 48 ≤ c.toNat ∧ c.toNat ≤ 57 ∨ c = ch%'.' ∨ c = ch%'_' ∨ c = ch%'-'

/-- An XML declaration (production 23) with an encoding. -/
structure EncDecl where
  version : Part
  encoding : Part
  name : Bytes
  standalone : Option (Part × Bool)
  gap : Bytes

/-- What comes after the encoding. -/
def EncDecl.tail (d : EncDecl) : Bytes :=
  (match d.standalone with
    | none => []
    | some (p, y) => p.gap ++ p.body (b!"standalone") (if y then b!"yes" else b!"no")) ++ d.gap

/-- What is between the white space after `<?xml` and `?>`. -/
def EncDecl.data (d : EncDecl) : Bytes :=
  d.version.body (b!"version") (b!"1.0") ++ (d.encoding.gap ++ (d.encoding.body (b!"encoding") d.name ++ d.tail))

/-- The spelling of the declaration. -/
def EncDecl.src (d : EncDecl) : Bytes := b!"<?xml" ++ (d.version.gap ++ (d.data ++ b!"?>"))

/-- The declaration is well formed. -/
structure EncDecl.Ok (d : EncDecl) : Prop where
  version : d.version.Ok
  encoding : d.encoding.Ok
  name : IsEncName d.name
  standalone : ∀ x ∈ d.standalone, x.1.Ok
  gap : IsS d.gap

/-- There is no white space at the equals signs of the version and the encoding. -/
def EncDecl.Tight (d : EncDecl) : Prop :=
  d.version.eq1 = [] ∧ d.version.eq2 = [] ∧ d.encoding.eq1 = [] ∧ d.encoding.eq2 = []

theorem index_at (x : UInt8) (a b r : Bytes) (ha : x ∉ a) : ∀ pre : Bytes, x ∉ pre →
    index (pre ++ ((a ++ x :: b) ++ r)) (a ++ x :: b) = some pre.length
  | [], _ => by
    cases hs : (a ++ x :: b) ++ r with
    | nil => simp at hs
    | cons c t =>
      have : (a ++ x :: b).isPrefixOf (c :: t) = true := by
        rw [List.isPrefixOf_iff_prefix]; exact ⟨r, hs⟩
      simp [index, this]
  | y :: pre, hp => by
    have hp' : x ∉ pre := fun h => hp (List.mem_cons_of_mem _ h)
    have : (a ++ x :: b).isPrefixOf (y :: (pre ++ ((a ++ x :: b) ++ r))) = false := by
      cases h : (a ++ x :: b).isPrefixOf (y :: (pre ++ ((a ++ x :: b) ++ r))) with
      | false => rfl
      | true =>
        obtain ⟨t, ht⟩ := List.isPrefixOf_iff_prefix.1 h
        have hs := (unique_split (x := x) (a := a) (s1 := (y :: pre) ++ a) (b := b ++ t) (s2 := b ++ r) ha (by
          rw [List.mem_append, not_or]; exact ⟨hp, ha⟩) (by simpa using ht)).1
        have := congrArg List.length hs
        simp at this
        omega
    rw [List.cons_append, index, this, index_at x a b r ha pre hp']
    rfl

/-- `procInst` finds a part without white space at its equals sign. -/
theorem procInst_tight (q x : UInt8) (a b v pre post : Bytes) (hq : q = ch%'\'' ∨ q = ch%'"') (hp : x ∉ pre) (ha : x ∉ a) (hv : q ∉ v) :
    procInst (a ++ x :: b) (pre ++ ((a ++ x :: b) ++ (ch%'=' :: q :: (v ++ q :: post)))) = v := by
  have e : pre ++ ((a ++ x :: b) ++ (ch%'=' :: q :: (v ++ q :: post))) =
      pre ++ ((a ++ x :: (b ++ [ch%'='])) ++ (q :: (v ++ q :: post))) := by simp
  have hi := index_at x a (b ++ [ch%'=']) (q :: (v ++ q :: post)) ha pre hp
  unfold procInst
  rw [e, show (a ++ x :: b) ++ [ch%'='] = a ++ x :: (b ++ [ch%'=']) by simp, procInstLoop, if_neg (by simp), hi]
  have hd : (pre ++ ((a ++ x :: (b ++ [ch%'='])) ++ (q :: (v ++ q :: post)))).drop ((a ++ x :: (b ++ [ch%'='])).length + pre.length) =
      q :: (v ++ q :: post) := by
    rw [← List.append_assoc, Nat.add_comm, ← List.length_append, List.drop_left]
  dsimp only
  rw [hd]
  dsimp only
  rw [if_pos hq]
  dsimp only
  rw [if_pos (by simp), takeWhile_quote _ _ _ hv]

theorem quoteByte_or (b : Bool) : quoteByte b = ch%'\'' ∨ quoteByte b = ch%'"' := by cases b <;> simp [quoteByte]

theorem encName_not {n : Bytes} (h : IsEncName n) (x : UInt8)
    (hx : ¬ (65 ≤ x.toNat ∧ x.toNat ≤ 90 ∨ 97 ≤ x.toNat ∧ x.toNat ≤ 122 ∨ 48 ≤ x.toNat ∧ x.toNat ≤ 57 ∨ x = ch%'.' ∨ x = ch%'_' ∨ x = ch%'-')) :
    x ∉ n := fun hm => hx (h.2 x hm)

theorem encDecl_version (d : EncDecl) (t : d.Tight) : procInst (b!"version") d.data = b!"1.0" := by
  have := procInst_tight (quoteByte d.version.quote) (ch%'v') [] (b!"ersion") (b!"1.0") []
    (d.encoding.gap ++ (d.encoding.body (b!"encoding") d.name ++ d.tail)) (quoteByte_or _) (by simp) (by simp)
    (by cases d.version.quote <;> decide)
  rw [← this]
  simp [EncDecl.data, Part.body, t.1, t.2.1, quoteOf_eq]

theorem encDecl_encoding (d : EncDecl) (h : d.Ok) (t : d.Tight) : procInst (b!"encoding") d.data = d.name := by
  have := procInst_tight (quoteByte d.encoding.quote) (ch%'c') (b!"en") (b!"oding") d.name
    (d.version.body (b!"version") (b!"1.0") ++ d.encoding.gap) d.tail (quoteByte_or _) (by
      rw [List.mem_append, not_or]
      exact ⟨not_mem_body _ h.version _ _ _ (by decide) (by decide) (by decide) (by decide) (by decide) (by decide),
        space_ne h.encoding.2.1 (by decide)⟩) (by decide)
    (encName_not h.name _ (by cases d.encoding.quote <;> decide))
  refine Eq.trans ?_ this
  congr 1
  simp [EncDecl.data, Part.body, t.2.2.1, t.2.2.2, quoteOf_eq]

theorem encDecl_no_mark (d : EncDecl) (h : d.Ok) : ch%'?' ∉ d.data := by
  unfold EncDecl.data EncDecl.tail
  simp only [List.mem_append, not_or]
  refine ⟨not_mem_body _ h.version _ _ _ (by decide) (by decide) (by decide) (by decide) (by decide) (by decide),
    space_ne h.encoding.2.1 (by decide),
    not_mem_body _ h.encoding _ _ _ (by decide) (by decide) (by decide) (by decide) (by decide) (encName_not h.name _ (by decide)),
    ?_, space_ne h.gap (by decide)⟩
  have he := h.standalone
  rcases hd : d.standalone with _ | ⟨p, y⟩
  · simp
  · have := he _ (by rw [hd]; rfl)
    dsimp only at this ⊢
    rw [List.mem_append, not_or]
    refine ⟨space_ne this.2.1 (by decide), not_mem_body p this _ _ _ (by decide) (by decide) (by decide) (by decide) (by decide) ?_⟩
    split <;> decide

theorem rawTokenC_decl (cs : Reader) (d : EncDecl) (h : d.Ok) (r : Bytes) :
    rawTokenC cs ⟨d.src ++ r, none⟩ =
      (match declC cs (b!"xml") d.data r with
       | .error e => .error e
       | .ok r2 => .ok (.procInst (b!"xml") d.data, ⟨r2, none⟩)) := by
  obtain ⟨g1, g2, _⟩ := h.version
  cases hg : d.version.gap with
  | nil => exact absurd hg g1
  | cons c g =>
    have e : d.src ++ r = ch%'<' :: ch%'?' :: (b!"xml" ++ c :: (g ++ (d.data ++ (b!"?>" ++ r)))) := by
      simp [EncDecl.src, hg]
    unfold rawTokenC
    simp only [e]
    rw [if_neg (by simp), if_neg (by decide), if_pos trivial]
    unfold piTagC
    rw [readXmlName_spec (b!"xml") c _ (by decide +kernel) (space_not c (isS_mem g2 c (by simp [hg])))]
    dsimp only
    have hk : skipSpace (c :: (g ++ (d.data ++ (b!"?>" ++ r)))) = d.data ++ (b!"?>" ++ r) := by
      rw [show c :: (g ++ (d.data ++ (b!"?>" ++ r))) = d.version.gap ++ (d.data ++ (b!"?>" ++ r)) by rw [hg]; rfl, skipSpace_s g2]
      exact skipSpace_cons (ch%'v') _ (by decide)
    have hq : ¬ (b!"?>") <:+: (0 :: d.data) := by
      intro hi
      have : ch%'?' ∈ (0 :: d.data) := hi.subset (by decide)
      rcases List.mem_cons.1 this with hm | hm
      · exact absurd hm (by decide)
      · exact encDecl_no_mark d h hm
    rw [hk, piLoop_spec d.data 0 [] r hq]
    dsimp only
    rw [List.nil_append]

/-- The declaration with an encoding that is not UTF-8. -/
theorem declC_other (cs : Reader) (d : EncDecl) (h : d.Ok) (t : d.Tight) (hn : isUtf8Name d.name = false) (r : Bytes) :
    declC cs (b!"xml") d.data r =
      (match cs d.name r with
       | .error e => .error (.other ("xml: opening charset: " ++ e))
       | .ok r' => .ok r') := by
  have hne : d.name ≠ [] := by obtain ⟨c, l, e, _⟩ := h.name.1; simp [e]
  unfold declC
  rw [if_pos rfl, encDecl_version d t, encDecl_encoding d h t, if_neg (by simp), if_pos ⟨hne, hn⟩]

theorem streamC_cons (cs : Reader) (n : Nat) (d d' : Dec) (t : Token) (h : tokenC cs d = .ok (t, d')) :
    streamC cs (n + 1) d = (⟨t, d.raw.rest, d'.raw.rest⟩ :: (streamC cs n d').1, (streamC cs n d').2) := by
  rw [streamC, h]

/-- After the declaration the decoder reads what the `CharsetReader` makes of the rest. -/
theorem C87_converted (cs : Reader) (d : EncDecl) (h : d.Ok) (t : d.Tight) (hn : isUtf8Name d.name = false) (body text : Bytes)
    (hc : cs d.name body = .ok text) (n : Nat) :
    streamC cs (n + 1) (Dec.new (d.src ++ body)) =
      (⟨.procInst (b!"xml") d.data, d.src ++ body, text⟩ :: (streamC cs n (Dec.new text)).1, (streamC cs n (Dec.new text)).2) := by
  refine streamC_cons cs n _ (Dec.new text) _ ?_
  unfold tokenC Dec.new
  rw [rawTokenC_decl cs d h, declC_other cs d h t hn, hc]
  rfl

/-- If the `CharsetReader` does not know the encoding, this is the only thing that the decoder reports. -/
theorem C87_fails (cs : Reader) (d : EncDecl) (h : d.Ok) (t : d.Tight) (hn : isUtf8Name d.name = false) (body : Bytes) (e : String)
    (hc : cs d.name body = .error e) (n : Nat) :
    streamC cs (n + 1) (Dec.new (d.src ++ body)) = ([], some (.other ("xml: opening charset: " ++ e))) := by
  have : tokenC cs (Dec.new (d.src ++ body)) = .error (.other ("xml: opening charset: " ++ e)) := by
    unfold tokenC Dec.new
    rw [rawTokenC_decl cs d h, declC_other cs d h t hn, hc]
    rfl
  rw [streamC, this]

/-- Without the option the document is refused at its declaration, as are manifests in other encodings: `/repo/mpd/io.go` does not set
it. -/
theorem C87_refused (d : EncDecl) (h : d.Ok) (t : d.Tight) (hn : isUtf8Name d.name = false) (body : Bytes) (n : Nat) :
    stream (n + 1) (Dec.new (d.src ++ body)) = ([], some noReader) := by
  have key : ∀ e : String, tokenC (fun _ _ => .error e) (Dec.new (d.src ++ body)) = .error (.other ("xml: opening charset: " ++ e)) := by
    intro e
    unfold tokenC Dec.new
    rw [rawTokenC_decl _ d h, declC_other _ d h t hn]
    rfl
  have : token (Dec.new (d.src ++ body)) = .error noReader := by
    rcases tokenC_same (fun _ _ => .error "a") (Dec.new (d.src ++ body)) with h1 | h1
    · exact h1
    · rcases tokenC_same (fun _ _ => .error "b") (Dec.new (d.src ++ body)) with h2 | h2
      · exact h2
      · rw [← h1, key, key] at h2
        injection h2 with h2
        exact absurd h2 (by decide)
  rw [stream, this]

/-- A document in another encoding gives the tokens of the same document in UTF-8, except for the declaration itself. -/
theorem C87_as_utf8 (cs : Reader) (d : EncDecl) (h : d.Ok) (t : d.Tight) (hn : isUtf8Name d.name = false) (u : Grammar.Decl) (hu : u.Ok)
    (body text : Bytes) (hc : cs d.name body = .ok text) (n : Nat) (he : (tokRun n (Dec.new text)).2 ≠ some noReader) :
    ∃ ts e, tokRunC cs (n + 1) (Dec.new (d.src ++ body)) = (.procInst (b!"xml") d.data :: ts, e) ∧
      tokRun (n + 1) (Dec.new (u.src ++ text)) = (.procInst (b!"xml") u.data :: ts, e) := by
  refine ⟨(tokRun n (Dec.new text)).1, (tokRun n (Dec.new text)).2, ?_, ?_⟩
  · have he' : (stream n (Dec.new text)).2 ≠ some noReader := by rw [stream_tokRun] at he; exact he
    unfold tokRunC
    rw [C87_converted cs d h t hn body text hc, C87_only cs n _ he', stream_tokRun]
    rfl
  · have : token (Dec.new (u.src ++ text)) = .ok (.procInst (b!"xml") u.data, Dec.new text) := by
      unfold token Dec.new
      rw [rawToken_decl u hu]
      rfl
    rw [tokRun, this]

/-! ### Unmarshalling -/

theorem stream_decl (u : Grammar.Decl) (hu : u.Ok) (text : Bytes) (n : Nat) :
    stream (n + 1) (Dec.new (u.src ++ text)) =
      (⟨.procInst (b!"xml") u.data, u.src ++ text, text⟩ :: (stream n (Dec.new text)).1, (stream n (Dec.new text)).2) := by
  have : token (Dec.new (u.src ++ text)) = .ok (.procInst (b!"xml") u.data, Dec.new text) := by
    unfold token Dec.new
    rw [rawToken_decl u hu]
    rfl
  rw [stream, this]
  rfl

/-- A declaration of UTF-8 makes no difference. -/
theorem unmarshalDoc_decl (io : FloatIO) (s : Sch) (u : Grammar.Decl) (hu : u.Ok) (text : Bytes) (e : XErr)
    (he : (stream (2 * text.length + 2) (Dec.new text)).2 = some e) :
    unmarshalDoc io s (u.src ++ text) = unmarshalDoc io s text := by
  have hs : stream (2 * (u.src ++ text).length + 2) (Dec.new (u.src ++ text)) =
      (⟨.procInst (b!"xml") u.data, u.src ++ text, text⟩ :: (stream (2 * text.length + 2) (Dec.new text)).1,
        (stream (2 * text.length + 2) (Dec.new text)).2) := by
    have hl : 5 ≤ u.src.length := by simp [Decl.src]
    rw [show 2 * (u.src ++ text).length + 2 = (2 * (u.src ++ text).length + 1) + 1 from rfl, stream_decl u hu,
      stream_more _ e _ _ he (by simp; omega)]
  unfold unmarshalDoc
  rw [hs]
  rfl

/-- A document in another encoding is unmarshalled as the same document in UTF-8. -/
theorem C87_decode (cs : Reader) (io : FloatIO) (s : Sch) (d : EncDecl) (h : d.Ok) (t : d.Tight) (hn : isUtf8Name d.name = false)
    (u : Grammar.Decl) (hu : u.Ok) (body text : Bytes) (hc : cs d.name body = .ok text) (e : XErr) (hx : e ≠ noReader)
    (he : (stream (2 * text.length + 2) (Dec.new text)).2 = some e) (k : Nat) (hk : 2 * text.length + 3 ≤ k) :
    decodeC cs io s k (d.src ++ body) = unmarshalDoc io s (u.src ++ text) := by
  rw [unmarshalDoc_decl io s u hu text e he]
  obtain ⟨k, rfl⟩ : ∃ j, k = j + 1 := ⟨k - 1, by omega⟩
  have hm := stream_more _ e _ k he (by omega)
  have hs := C87_converted cs d h t hn body text hc k
  rw [C87_only cs k _ (by rw [hm, he]; intro hh; exact hx (Option.some.inj hh)), hm] at hs
  unfold decodeC unmarshalDoc
  rw [hs]
  rfl

/-! ### ISO-8859-1 -/

/-- A `CharsetReader` for ISO-8859-1, in which each byte is the character with its number. -/
def latin1 : Reader := fun name input =>
  if name = b!"ISO-8859-1" then .ok (input.flatMap fun c => encodeRune c.toNat) else .error "unknown charset"

/-- With it, a document of characters up to U+00FF is unmarshalled from ISO-8859-1 as from UTF-8. -/
theorem C87_latin1 (io : FloatIO) (s : Sch) (d : EncDecl) (h : d.Ok) (t : d.Tight) (hn : d.name = b!"ISO-8859-1")
    (u : Grammar.Decl) (hu : u.Ok) (chars : List Nat) (hch : ∀ c ∈ chars, c < 256) (e : XErr) (hx : e ≠ noReader)
    (he : (stream (2 * (chars.flatMap encodeRune).length + 2) (Dec.new (chars.flatMap encodeRune))).2 = some e)
    (k : Nat) (hk : 2 * (chars.flatMap encodeRune).length + 3 ≤ k) :
    decodeC latin1 io s k (d.src ++ chars.map UInt8.ofNat) = unmarshalDoc io s (u.src ++ chars.flatMap encodeRune) := by
  refine C87_decode latin1 io s d h t (by rw [hn]; decide +kernel) u hu _ _ ?_ e hx he k hk
  rw [hn, latin1, if_pos rfl, List.flatMap_map]
  congr 1
  refine List.flatMap_congr fun c hc => ?_
  rw [toNat_ofNat (hch c hc)]

/-! ### A case, and where it is false -/

/-- `<?xml version="1.0" encoding="ISO-8859-1"?>` with white space `w` at the equals sign. -/
def exDecl (w : Bytes) : EncDecl := ⟨⟨b!" ", [], [], false⟩, ⟨b!" ", w, [], false⟩, b!"ISO-8859-1", none, []⟩

theorem isEncName_ex : IsEncName (b!"ISO-8859-1") := ⟨⟨_, _, rfl, by decide⟩, by decide⟩

theorem isS_nil : IsS [] := by simp [IsS]
theorem isS_one : IsS (b!" ") := by simp [IsS]

theorem exDecl_ok (w : Bytes) (hw : IsS w) : (exDecl w).Ok :=
  ⟨⟨by simp [exDecl], isS_one, isS_nil, isS_nil⟩, ⟨by simp [exDecl], isS_one, hw, isS_nil⟩, isEncName_ex, by simp [exDecl], isS_nil⟩

theorem exDecl_tight : (exDecl []).Tight := ⟨rfl, rfl, rfl, rfl⟩

/-- `<a>é</a>`. -/
def exChars : List Nat := [60, 97, 62, 233, 60, 47, 97, 62]

example : tokRunC latin1 5 (Dec.new ((exDecl []).src ++ exChars.map UInt8.ofNat)) =
    ([.procInst (b!"xml") (exDecl []).data, .startElement ⟨[], b!"a"⟩ [], .charData [0xC3, 0xA9], .endElement ⟨[], b!"a"⟩], some .eof) := by
  decide +kernel

example (io : FloatIO) (s : Sch) (u : Grammar.Decl) (hu : u.Ok) (k : Nat) (hk : 21 ≤ k) :
    decodeC latin1 io s k ((exDecl []).src ++ exChars.map UInt8.ofNat) = unmarshalDoc io s (u.src ++ (b!"<a>" ++ [0xC3, 0xA9] ++ b!"</a>")) :=
  C87_latin1 io s _ (exDecl_ok [] isS_nil) exDecl_tight rfl u hu exChars (by decide) .eof (by decide) (by decide +kernel) k hk

/-- With white space at the equals sign, as XML allows, the encoding is not noticed: the bytes are taken as UTF-8, here without an
error, and two characters become one. -/
theorem C87_spaced_refuted : (exDecl (b!" ")).Ok ∧
    tokRunC latin1 5 (Dec.new ((exDecl (b!" ")).src ++ [60, 97, 62, 0xC3, 0xA9, 60, 47, 97, 62])) =
      ([.procInst (b!"xml") (exDecl (b!" ")).data, .startElement ⟨[], b!"a"⟩ [], .charData [0xC3, 0xA9], .endElement ⟨[], b!"a"⟩], some .eof) ∧
    tokRunC latin1 5 (Dec.new ((exDecl []).src ++ [60, 97, 62, 0xC3, 0xA9, 60, 47, 97, 62])) =
      ([.procInst (b!"xml") (exDecl []).data, .startElement ⟨[], b!"a"⟩ [], .charData [0xC3, 0x83, 0xC2, 0xA9], .endElement ⟨[], b!"a"⟩],
        some .eof) :=
  ⟨exDecl_ok _ isS_one, by decide +kernel, by decide +kernel⟩

/-- A second declaration, which XML does not allow, is obeyed too: what comes after it is converted twice. -/
theorem C87_again_refuted :
    tokRunC latin1 6 (Dec.new ((exDecl []).src ++ (b!"<a>" ++ (exDecl []).src ++ [0xE9] ++ b!"</a>"))) =
      ([.procInst (b!"xml") (exDecl []).data, .startElement ⟨[], b!"a"⟩ [], .procInst (b!"xml") (exDecl []).data,
        .charData [0xC3, 0x83, 0xC2, 0xA9], .endElement ⟨[], b!"a"⟩], some .eof) := by decide +kernel

end Verif.Charset
