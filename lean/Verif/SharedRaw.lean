import Verif.Shared

/-!
C91, continued: `rawToken` with its buffer in memory.  Each function of the tokenizer is here once more, with the buffer as a
`bytes.Buffer` in place of a list of bytes, and the results as slices of it, and is shown to do the same as the model with
values (`XmlText`, `XmlToken`).
-/
namespace Verif.Shared

open Verif Verif.Xml Verif.Utf8

/-! ### The code -/

/-- `readName` and the check in `name` (`/repo/xml/xml.go` 1237-1250): the name is a string made of the bytes in the buffer. -/
def nameM (g : Nat → Nat) (m : Mem) (s : Bytes) : Except XErr (Mem × Option (Bytes × Bytes)) :=
  match readName s with
  | .error e => .error e
  | .ok (nm, r) =>
    let m' := steps g m (.reset :: nm.map .put)
    if nm = [] then .ok (m', none)
    else if isName (content m') then .ok (m', some (content m', r))
    else .error (.syntaxError "invalid XML name: ")

/-- `nsname` (`/repo/xml/xml.go` 1213-1232). -/
def nsnameM (g : Nat → Nat) (m : Mem) (s : Bytes) : Except XErr (Mem × Option (Name × Bytes)) :=
  match nameM g m s with
  | .error e => .error e
  | .ok (m', none) => .ok (m', none)
  | .ok (m', some (nm, r)) =>
    match splitName nm with
    | none => .ok (m', none)
    | some n => .ok (m', some (n, r))

/-- The numeric reference after `&#` or `&#x` (`/repo/xml/xml.go` 1093-1120), which are in the buffer: digits are written, read as a
string, and then the semicolon is written. -/
def numRefM (g : Nat → Nat) (m : Mem) (hex : Bool) (s : Bytes) : Except XErr (Mem × Bytes × Bytes) :=
  let m1 := steps g m ((s.takeWhile (isRefDigit hex)).map .put)
  match s.dropWhile (isRefDigit hex) with
  | [] => .error unexpectedEOF
  | b :: r =>
    if b ≠ ch%';' then .error badEntity
    else
      let ds := (content m1).drop m.len
      if ds ≠ [] ∧ refVal hex ds ≤ 0x10FFFF then .ok (step g m1 (.put (ch%';')), encodeRune (refVal hex ds), r)
      else .error badEntity

/-- The named reference after `&` (`/repo/xml/xml.go` 1121-1146), which is in the buffer: `name` is a slice of the buffer, and is
looked up after the semicolon was written (1134-1139). -/
def nameRefM (g : Nat → Nat) (m : Mem) (s : Bytes) : Except XErr (Mem × Bytes × Bytes) :=
  match readName s with
  | .error e => .error e
  | .ok (_, []) => .error unexpectedEOF
  | .ok (nm, b :: r) =>
    let m1 := steps g m (nm.map .put)
    if b ≠ ch%';' then .error badEntity
    else
      let m2 := step g m1 (.put (ch%';'))
      let name := ((m2.arr m1.cur).take m1.len).drop m.len
      if isName name then
        match entity name with
        | some c => .ok (m2, encodeRune c, r)
        | none => .error badEntity
      else .error badEntity

/-- A reference after its `&` (`/repo/xml/xml.go` 1080-1147). -/
def entityM (g : Nat → Nat) (m : Mem) : Bytes → Except XErr (Mem × Bytes × Bytes)
  | [] => .error unexpectedEOF
  | [b] => if b = ch%'#' then .error unexpectedEOF else nameRefM g (step g m (.put (ch%'&'))) [b]
  | b :: c :: r =>
    if b = ch%'#' then
      (if c = ch%'x' then numRefM g (steps g m [.put (ch%'&'), .put (ch%'#'), .put (ch%'x')]) true r
       else numRefM g (steps g m [.put (ch%'&'), .put (ch%'#')]) false (c :: r))
    else nameRefM g (step g m (.put (ch%'&'))) (b :: c :: r)

/-- The loop of `text` (`/repo/xml/xml.go` 1032-1179): the memory, how many bytes of the buffer are the text, and the rest. -/
def textM (g : Nat → Nat) : Nat → Option UInt8 → Bool → UInt8 → UInt8 → Mem → Bytes → Except XErr (Mem × Nat × Bytes)
  | 0, _, _, _, _, _, _ => .error unexpectedEOF
  | _ + 1, _, cd, _, _, m, [] =>
    if cd then .error (.syntaxError "unexpected EOF in CDATA section") else .ok (m, m.len, [])
  | n + 1, q, cd, b0, b1, m, b :: r =>
    if q = none ∧ b0 = ch%']' ∧ b1 = ch%']' ∧ b = ch%'>' then
      (if cd then .ok (m, m.len - 2, r)
       else .error (.syntaxError "unescaped ]]> not in CDATA section"))
    else if b = ch%'<' ∧ cd = false then
      (if q ≠ none then .error (.syntaxError "unescaped < inside quoted string") else .ok (m, m.len, b :: r))
    else if b = ch%'>' ∧ cd = false ∧ q = none then .ok (m, m.len, b :: r)
    else if q = some b then .ok (m, m.len, r)
    else if b = ch%'&' ∧ cd = false then
      match entityM g m r with
      | .error e => .error e
      | .ok (m', t, r') => textM g n q cd 0 0 (steps g m' (.trunc m.len :: t.map .put)) r'
    else textM g n q cd b1 b (steps g m ((putByte b1 b).map .put)) r

/-- `text` (`/repo/xml/xml.go` 1028-1197). -/
def textFull (g : Nat → Nat) (m : Mem) (q : Option UInt8) (cd : Bool) (s : Bytes) : Except XErr (Mem × Nat × Bytes) :=
  match textM g (s.length + 1) q cd 0 0 (step g m .reset) s with
  | .error e => .error e
  | .ok (m', n, r) =>
    match checkChars (runes ((content m').take n)) with
    | some e => .error e
    | none => .ok (m', n, r)

/-- The body of a processing instruction (`/repo/xml/xml.go` 652-664). -/
def piM (g : Nat → Nat) : UInt8 → Mem → Bytes → Except XErr (Mem × Nat × Bytes)
  | _, _, [] => .error unexpectedEOF
  | b0, m, b :: r =>
    let m' := step g m (.put b)
    if b0 = ch%'?' ∧ b = ch%'>' then .ok (m', m'.len - 2, r) else piM g b m' r

/-- The body of a comment (`/repo/xml/xml.go` 709-726). -/
def commentM (g : Nat → Nat) : UInt8 → UInt8 → Mem → Bytes → Except XErr (Mem × Nat × Bytes)
  | _, _, _, [] => .error unexpectedEOF
  | b0, b1, m, b :: r =>
    let m' := step g m (.put b)
    if b0 = ch%'-' ∧ b1 = ch%'-' then
      if b ≠ ch%'>' then .error (.syntaxError "invalid sequence \"--\" not allowed in comments")
      else .ok (m', m'.len - 3, r)
    else commentM g b1 b m' r

/-- The body of a directive (`/repo/xml/xml.go` 755-815): a `<` that begins a comment is written and removed again. -/
def dirM (g : Nat → Nat) : Nat → Bool → UInt8 → Int → Mem → Bytes → Except XErr (Mem × Nat × Bytes)
  | 0, _, _, _, _, _ => .error unexpectedEOF
  | _ + 1, _, _, _, _, [] => .error unexpectedEOF
  | n + 1, handle, inq, depth, m, b :: r =>
    if handle = false ∧ inq = 0 ∧ b = ch%'>' ∧ depth = 0 then .ok (m, m.len, r)
    else if b = inq then dirM g n false 0 depth (step g m (.put b)) r
    else if inq ≠ 0 then dirM g n false inq depth (step g m (.put b)) r
    else if b = ch%'\'' ∨ b = ch%'"' then dirM g n false b depth (step g m (.put b)) r
    else if b = ch%'>' then dirM g n false inq (depth - 1) (step g m (.put b)) r
    else if b = ch%'<' then
      match dirLt r with
      | .eof => .error unexpectedEOF
      | .notComment w r' => dirM g n true inq (depth + 1) (steps g (step g m (.put b)) (w.map .put)) r'
      | .comment r' =>
        match skipComment 0 0 r' with
        | .error e => .error e
        | .ok r'' =>
          dirM g n false inq depth (steps g (step g m (.put b)) [.trunc ((step g m (.put b)).len - 1), .put (ch%' ')]) r''
    else dirM g n false inq depth (step g m (.put b)) r

/-- One attribute (`/repo/xml/xml.go` 858-881, 892-905): the value is a string made of the bytes in the buffer. -/
def readAttrM (g : Nat → Nat) (m : Mem) (s : Bytes) : Except XErr (Mem × Attr × Bytes) :=
  match nsnameM g m s with
  | .error e => .error e
  | .ok (_, none) => .error (.syntaxError "expected attribute name in element")
  | .ok (m1, some (n, r)) =>
    match skipSpace r with
    | [] => .error unexpectedEOF
    | b :: r1 =>
      if b ≠ ch%'=' then .error (.syntaxError "attribute name without = in element")
      else
        match skipSpace r1 with
        | [] => .error unexpectedEOF
        | c :: r2 =>
          if c = ch%'"' ∨ c = ch%'\'' then
            match textFull g m1 (some c) false r2 with
            | .error e => .error e
            | .ok (m2, k, r3) => .ok (m2, ⟨n, (content m2).take k⟩, r3)
          else .error (.syntaxError "unquoted or missing attribute value in element")

/-- The attributes of a start element (`/repo/xml/xml.go` 833-883). -/
def attrLoopM (g : Nat → Nat) : Nat → List Attr → Mem → Bytes → Except XErr (Mem × List Attr × Bool × Bytes)
  | 0, _, _, _ => .error unexpectedEOF
  | n + 1, acc, m, s =>
    match skipSpace s with
    | [] => .error unexpectedEOF
    | b :: r =>
      if b = ch%'/' then
        match r with
        | [] => .error unexpectedEOF
        | c :: r' => if c ≠ ch%'>' then .error (.syntaxError "expected /> in element") else .ok (m, acc, true, r')
      else if b = ch%'>' then .ok (m, acc, false, r)
      else
        match readAttrM g m (b :: r) with
        | .error e => .error e
        | .ok (m', a, r') => attrLoopM g n (acc ++ [a]) m' r'

/-- A token with slices of the buffer (`/repo/xml/xml.go` 53-139); the names and attributes of elements are strings. -/
inductive MTok where
  | val (t : Token)
  | chars (s : Slice)
  | comment (s : Slice)
  | inst (target : Bytes) (s : Slice)
  | directive (s : Slice)

/-- The token that one sees. -/
def MTok.see (m : Mem) : MTok → Token
  | .val t => t
  | .chars s => .charData (s.bytes m)
  | .comment s => .comment (s.bytes m)
  | .inst t s => .procInst t (s.bytes m)
  | .directive s => .directive (s.bytes m)

/-- The first `n` bytes of the buffer. -/
def front (m : Mem) (n : Nat) : Slice := ⟨m.cur, min n m.len⟩

/-- `<!…` (`/repo/xml/xml.go` 692-815). -/
def bangM (g : Nat → Nat) (m : Mem) : Bytes → Except XErr (Mem × MTok × Raw)
  | [] => .error unexpectedEOF
  | b :: r =>
    if b = ch%'-' then
      match r with
      | [] => .error unexpectedEOF
      | c :: r1 =>
        if c ≠ ch%'-' then .error (.syntaxError "invalid sequence <!- not part of <!--")
        else
          match commentM g 0 0 (step g m .reset) r1 with
          | .error e => .error e
          | .ok (m', n, r2) => .ok (m', .comment (front m' n), ⟨r2, none⟩)
    else if b = ch%'[' then
      match cdataOpen b!"CDATA[" r with
      | .error e => .error e
      | .ok r1 =>
        match textFull g m none true r1 with
        | .error e => .error e
        | .ok (m', n, r2) => .ok (m', .chars (front m' n), ⟨r2, none⟩)
    else
      match dirM g (r.length + 1) false 0 0 (steps g m [.reset, .put b]) r with
      | .error e => .error e
      | .ok (m', n, r2) => .ok (m', .directive (front m' n), ⟨r2, none⟩)

/-- `<?target data?>` (`/repo/xml/xml.go` 641-690). -/
def piTagM (g : Nat → Nat) (m : Mem) (s : Bytes) : Except XErr (Mem × MTok × Raw) :=
  match nameM g m s with
  | .error e => .error e
  | .ok (_, none) => .error (.syntaxError "expected target name after <?")
  | .ok (m1, some (target, r)) =>
    match piM g 0 (step g m1 .reset) (skipSpace r) with
    | .error e => .error e
    | .ok (m2, n, r') =>
      match checkXmlDecl target ((content m2).take n) with
      | some e => .error e
      | none => .ok (m2, .inst target (front m2 n), ⟨r', none⟩)

/-- `</name>` (`/repo/xml/xml.go` 622-639). -/
def endTagM (g : Nat → Nat) (m : Mem) (s : Bytes) : Except XErr (Mem × MTok × Raw) :=
  match nsnameM g m s with
  | .error e => .error e
  | .ok (_, none) => .error (.syntaxError "expected element name after </")
  | .ok (m', some (n, r)) =>
    match skipSpace r with
    | [] => .error unexpectedEOF
    | b :: r1 =>
      if b ≠ ch%'>' then .error (.syntaxError "invalid characters between </ and >")
      else .ok (m', .val (.endElement n), ⟨r1, none⟩)

/-- A start tag (`/repo/xml/xml.go` 818-889). -/
def startTagM (g : Nat → Nat) (m : Mem) (s : Bytes) : Except XErr (Mem × MTok × Raw) :=
  match nsnameM g m s with
  | .error e => .error e
  | .ok (_, none) => .error (.syntaxError "expected element name after <")
  | .ok (m1, some (n, r)) =>
    match attrLoopM g (r.length + 1) [] m1 r with
    | .error e => .error e
    | .ok (m2, attrs, empty, r') => .ok (m2, .val (.startElement n attrs), ⟨r', if empty then some n else none⟩)

/-- `rawToken` (`/repo/xml/xml.go` 588-889). -/
def rawTokenM (g : Nat → Nat) (m : Mem) (st : Raw) : Except XErr (Mem × MTok × Raw) :=
  match st.toClose with
  | some n => .ok (m, .val (.endElement n), ⟨st.rest, none⟩)
  | none =>
    match st.rest with
    | [] => .error .eof
    | b :: r =>
      if b ≠ ch%'<' then
        match textFull g m none false (b :: r) with
        | .error e => .error e
        | .ok (m', n, r') => .ok (m', .chars (front m' n), ⟨r', none⟩)
      else
        match r with
        | [] => .error unexpectedEOF
        | c :: r1 =>
          if c = ch%'/' then endTagM g m r1
          else if c = ch%'?' then piTagM g m r1
          else if c = ch%'!' then bangM g m r1
          else startTagM g m (c :: r1)

/-- `CopyToken` (`/repo/xml/xml.go` 116-130); the attributes of a start element are values here (their lists are in `Shared`). -/
def MTok.copy (m : Mem) : MTok → Mem × MTok
  | .val t => (m, .val t)
  | .chars s => ((clone m s).1, .chars (clone m s).2)
  | .comment s => ((clone m s).1, .comment (clone m s).2)
  | .inst t s => ((clone m s).1, .inst t (clone m s).2)
  | .directive s => ((clone m s).1, .directive (clone m s).2)

/-- A program that reads up to `k` raw tokens of a document and keeps copies (`cp`) or the tokens themselves; it stops at the first
error. -/
def collect (g : Nat → Nat) (cp : Bool) : Nat → Mem → Raw → Mem × List MTok × Option XErr
  | 0, m, _ => (m, [], none)
  | k + 1, m, st =>
    match rawTokenM g m st with
    | .error e => (m, [], some e)
    | .ok (m', t, st') =>
      let c := if cp then t.copy m' else (m', t)
      let r := collect g cp k c.1 st'
      (r.1, c.2 :: r.2.1, r.2.2)

/-- Specification: the same with tokens that are values. -/
def collected : Nat → Raw → List Token × Option XErr
  | 0, _ => ([], none)
  | k + 1, st =>
    match rawToken st with
    | .error e => ([], some e)
    | .ok (t, st') => (t :: (collected k st').1, (collected k st').2)

/-! ### Proof -/

/-- `m'` comes after `m`: it is as it should be, and arrays that are not the buffer's are as before. -/
structure After (m m' : Mem) : Prop where
  ok : Ok m'
  frame : ∀ i, i ≠ m.cur → i < m.next → m'.arr i = m.arr i ∧ i ≠ m'.cur ∧ i < m'.next

theorem After.refl {m : Mem} (h : Ok m) : After m m := ⟨h, fun _ h1 h2 => ⟨rfl, h1, h2⟩⟩

theorem After.trans {a b c : Mem} (h : After a b) (k : After b c) : After a c := ⟨k.ok, fun i h1 h2 => by
  obtain ⟨x1, x2, x3⟩ := h.frame i h1 h2
  obtain ⟨y1, y2, y3⟩ := k.frame i x2 x3
  exact ⟨y1.trans x1, y2, y3⟩⟩

theorem after_steps (g : Nat → Nat) {m : Mem} (h : Ok m) (ops : List Op) : After m (steps g m ops) :=
  ⟨(steps_all g ops m h).1, (steps_all g ops m h).2.2⟩

theorem after_step (g : Nat → Nat) {m : Mem} (h : Ok m) (o : Op) : After m (step g m o) := after_steps g h [o]

theorem content_length {m : Mem} (h : Ok m) : (content m).length = m.len := by
  have := h.room
  simp [content]; omega

theorem content_puts (g : Nat → Nat) {m : Mem} (h : Ok m) (l : Bytes) : content (steps g m (l.map .put)) = content m ++ l := by
  rw [(steps_all g _ m h).2.1, puts_on]

theorem content_put (g : Nat → Nat) {m : Mem} (h : Ok m) (b : UInt8) : content (step g m (.put b)) = content m ++ [b] :=
  step_content g h (.put b)

/-- The result of a loop on the buffer is that of the loop on values. -/
def Sim (m : Mem) : Except XErr (Mem × Nat × Bytes) → Except XErr (Bytes × Bytes) → Prop
  | .error e, .error e' => e = e'
  | .ok (m', n, r), .ok (d, r') => After m m' ∧ (content m').take n = d ∧ r = r'
  | _, _ => False

theorem Sim.from {a b : Mem} (h : After a b) : ∀ {x y}, Sim b x y → Sim a x y
  | .error _, .error _, k => k
  | .ok _, .ok _, k => ⟨h.trans k.1, k.2⟩
  | .error _, .ok _, k => k
  | .ok _, .error _, k => k

theorem pi_sim (g : Nat → Nat) : ∀ (s : Bytes) (b0 : UInt8) (m : Mem), Ok m → Sim m (piM g b0 m s) (piLoop b0 (content m) s)
  | [], b0, m, h => rfl
  | b :: s, b0, m, h => by
    have a := after_step g h (.put b)
    simp only [piM, piLoop]
    split
    · exact ⟨a, by rw [content_put g h, ← content_length a.ok, content_put g h], rfl⟩
    · have := pi_sim g s b _ a.ok
      rw [content_put g h] at this
      exact this.from a

theorem comment_sim (g : Nat → Nat) : ∀ (s : Bytes) (b0 b1 : UInt8) (m : Mem), Ok m →
    Sim m (commentM g b0 b1 m s) (commentLoop b0 b1 (content m) s)
  | [], b0, b1, m, h => rfl
  | b :: s, b0, b1, m, h => by
    have a := after_step g h (.put b)
    simp only [commentM, commentLoop]
    split
    · split
      · rfl
      · exact ⟨a, by rw [content_put g h, ← content_length a.ok, content_put g h], rfl⟩
    · have := comment_sim g s b1 b _ a.ok
      rw [content_put g h] at this
      exact this.from a

theorem take_len {m : Mem} (h : Ok m) : (content m).take m.len = content m := by
  rw [← content_length h]; exact List.take_length

theorem dir_sim (g : Nat → Nat) : ∀ (n : Nat) (handle : Bool) (inq : UInt8) (depth : Int) (m : Mem) (s : Bytes), Ok m →
    Sim m (dirM g n handle inq depth m s) (dirLoop n handle inq depth (content m) s)
  | 0, _, _, _, _, _, _ => rfl
  | n + 1, _, _, _, _, [], _ => rfl
  | n + 1, handle, inq, depth, m, b :: r, h => by
    have a := after_step g h (.put b)
    have go : ∀ (hd : Bool) (i : UInt8) (d : Int), Sim m (dirM g n hd i d (step g m (.put b)) r) (dirLoop n hd i d (content m ++ [b]) r) :=
      fun hd i d => by
        have := dir_sim g n hd i d (step g m (.put b)) r a.ok
        rw [content_put g h] at this
        exact this.from a
    simp only [dirM, dirLoop]
    split
    · exact ⟨.refl h, take_len h, rfl⟩
    split
    · exact go _ _ _
    split
    · exact go _ _ _
    split
    · exact go _ _ _
    split
    · exact go _ _ _
    split
    · cases dirLt r with
      | eof => rfl
      | notComment w r' =>
        have a' := after_steps g a.ok (w.map .put)
        have := dir_sim g n true inq (depth + 1) _ r' a'.ok
        rw [content_puts g a.ok, content_put g h] at this
        exact (this.from a').from a
      | comment r' =>
        dsimp only
        cases skipComment 0 0 r' with
        | error e => rfl
        | ok r'' =>
          dsimp only
          have hl : (step g m (.put b)).len = (content m).length + 1 := by
            rw [← content_length a.ok, content_put g h]; simp
          rw [hl, Nat.add_sub_cancel]
          have a' := after_steps g a.ok [.trunc (content m).length, .put (ch%' ')]
          have := dir_sim g n false inq depth _ r'' a'.ok
          have hc : content (steps g (step g m (.put b)) [.trunc (content m).length, .put (ch%' ')]) = content m ++ [ch%' '] := by
            rw [(steps_all g _ _ a.ok).2.1, content_put g h]
            simp [Op.on]
          rw [hc] at this
          exact (this.from a').from a
    · exact go _ _ _

/-- The result of reading a reference: the text, and the bytes before it are still in the buffer. -/
def SimRef (m : Mem) (k : Nat) : Except XErr (Mem × Bytes × Bytes) → Except XErr (Bytes × Bytes) → Prop
  | .error e, .error e' => e = e'
  | .ok (m', t, r), .ok (t', r') => After m m' ∧ t = t' ∧ r = r' ∧ (content m').take k = (content m).take k
  | _, _ => False

theorem SimRef.from {a b : Mem} {k : Nat} (h : After a b) (hk : (content b).take k = (content a).take k) :
    ∀ {x y}, SimRef b k x y → SimRef a k x y
  | .error _, .error _, p => p
  | .ok _, .ok _, p => ⟨h.trans p.1, p.2.1, p.2.2.1, p.2.2.2.trans hk⟩
  | .error _, .ok _, p => p
  | .ok _, .error _, p => p

/-- A slice of the buffer stays as it is when bytes are added. -/
theorem kept_put (g : Nat → Nat) {m : Mem} (h : Ok m) (b : UInt8) : ((step g m (.put b)).arr m.cur).take m.len = content m := by
  have h1 := h.used
  simp only [step, content]
  split
  · dsimp only
    rw [Function.update_self, List.take_set, List.set_eq_of_length_le (by simp; omega)]
  · dsimp only
    rw [Function.update_of_ne (by omega)]

theorem take_puts {m : Mem} {k : Nat} (h : Ok m) (hk : k ≤ m.len) (l : Bytes) : (content m ++ l).take k = (content m).take k := by
  rw [List.take_append_of_le_length (by rw [content_length h]; exact hk)]

theorem numRef_sim (g : Nat → Nat) {m : Mem} (h : Ok m) {k : Nat} (hk : k ≤ m.len) (hex : Bool) (s : Bytes) :
    SimRef m k (numRefM g m hex s) (numRef hex s) := by
  have a := after_steps g h ((s.takeWhile (isRefDigit hex)).map .put)
  have e : (content (steps g m ((s.takeWhile (isRefDigit hex)).map .put))).drop m.len = s.takeWhile (isRefDigit hex) := by
    rw [content_puts g h, ← content_length h]; simp
  simp only [numRefM, numRef, e]
  generalize s.dropWhile (isRefDigit hex) = rest
  cases rest with
  | nil => rfl
  | cons b r =>
    dsimp only
    split
    · rfl
    · split
      · refine ⟨a.trans (after_step g a.ok _), rfl, rfl, ?_⟩
        rw [content_put g a.ok, content_puts g h, List.append_assoc]
        exact take_puts h hk _
      · rfl

theorem nameRef_sim (g : Nat → Nat) {m : Mem} (h : Ok m) {k : Nat} (hk : k ≤ m.len) (s : Bytes) :
    SimRef m k (nameRefM g m s) (nameRef s) := by
  simp only [nameRefM, nameRef]
  generalize readName s = x
  match x with
  | .error e => exact rfl
  | .ok (_, []) => exact rfl
  | .ok (nm, b :: r) =>
    have a := after_steps g h (nm.map .put)
    dsimp only
    split
    · rfl
    · rw [kept_put g a.ok, show (content (steps g m (nm.map .put))).drop m.len = nm by
        rw [content_puts g h, ← content_length h]; simp]
      split
      · cases entity nm with
        | none => rfl
        | some c =>
          refine ⟨a.trans (after_step g a.ok _), rfl, rfl, ?_⟩
          rw [content_put g a.ok, content_puts g h, List.append_assoc]
          exact take_puts h hk _
      · rfl

theorem len_puts (g : Nat → Nat) {m : Mem} (h : Ok m) (l : Bytes) : m.len ≤ (steps g m (l.map .put)).len := by
  rw [← content_length (after_steps g h _).ok, content_puts g h, List.length_append, content_length h]
  exact Nat.le_add_right _ _

theorem entity_sim (g : Nat → Nat) {m : Mem} (h : Ok m) (s : Bytes) : SimRef m m.len (entityM g m s) (entityRef s) := by
  have lift : ∀ (l : Bytes) {x y}, SimRef (steps g m (l.map .put)) m.len x y → SimRef m m.len x y := fun l x y p =>
    p.from (after_steps g h _) (by rw [content_puts g h]; exact take_puts h (Nat.le_refl _) l)
  have okp : ∀ l : Bytes, Ok (steps g m (l.map .put)) := fun l => (after_steps g h _).ok
  match s with
  | [] => rfl
  | [b] =>
    simp only [entityM, entityRef]
    split
    · rfl
    · exact lift [ch%'&'] (nameRef_sim g (okp [ch%'&']) (len_puts g h [ch%'&']) _)
  | b :: c :: r =>
    simp only [entityM, entityRef]
    split
    · split
      · exact lift [ch%'&', ch%'#', ch%'x'] (numRef_sim g (okp _) (len_puts g h [ch%'&', ch%'#', ch%'x']) _ _)
      · exact lift [ch%'&', ch%'#'] (numRef_sim g (okp _) (len_puts g h [ch%'&', ch%'#']) _ _)
    · exact lift [ch%'&'] (nameRef_sim g (okp [ch%'&']) (len_puts g h [ch%'&']) _)

theorem text_sim (g : Nat → Nat) : ∀ (n : Nat) (q : Option UInt8) (cd : Bool) (b0 b1 : UInt8) (m : Mem) (s : Bytes), Ok m →
    Sim m (textM g n q cd b0 b1 m s) (textLoop n q cd b0 b1 (content m) s)
  | 0, _, _, _, _, _, _, _ => rfl
  | n + 1, q, cd, b0, b1, m, [], h => by
    simp only [textM, textLoop]
    split
    · rfl
    · exact ⟨.refl h, take_len h, rfl⟩
  | n + 1, q, cd, b0, b1, m, b :: r, h => by
    simp only [textM, textLoop]
    split
    · split
      · exact ⟨.refl h, by rw [content_length h], rfl⟩
      · rfl
    split
    · split
      · rfl
      · exact ⟨.refl h, take_len h, rfl⟩
    split
    · exact ⟨.refl h, take_len h, rfl⟩
    split
    · exact ⟨.refl h, take_len h, rfl⟩
    split
    · have e := entity_sim g h r
      revert e
      cases entityM g m r with
      | error x =>
        cases entityRef r with
        | error y => exact fun e => e
        | ok y => exact fun e => e.elim
      | ok x =>
        cases entityRef r with
        | error y => exact fun e => e.elim
        | ok y =>
          obtain ⟨m', t, r'⟩ := x
          obtain ⟨t', r''⟩ := y
          rintro ⟨a, rfl, rfl, hc⟩
          have a' := after_steps g a.ok (.trunc m.len :: t.map .put)
          have := text_sim g n q cd 0 0 _ r' a'.ok
          rw [(steps_all g _ _ a.ok).2.1] at this
          simp only [List.foldl_cons, Op.on, puts_on, hc, take_len h] at this
          exact (this.from a').from a
    · have a := after_steps g h ((putByte b1 b).map .put)
      have := text_sim g n q cd b1 b _ r a.ok
      rw [content_puts g h] at this
      exact this.from a

theorem content_reset (g : Nat → Nat) (m : Mem) : content (step g m .reset) = [] := by simp [content, step]

theorem textFull_sim (g : Nat → Nat) {m : Mem} (h : Ok m) (q : Option UInt8) (cd : Bool) (s : Bytes) :
    Sim m (textFull g m q cd s) (text q cd s) := by
  have a := after_step g h .reset
  have e := text_sim g (s.length + 1) q cd 0 0 _ s a.ok
  rw [content_reset] at e
  replace e := e.from a
  simp only [textFull, text]
  revert e
  cases textM g (s.length + 1) q cd 0 0 (step g m .reset) s with
  | error x =>
    cases textLoop (s.length + 1) q cd 0 0 [] s with
    | error y => exact fun e => e
    | ok y => exact fun e => e.elim
  | ok x =>
    cases textLoop (s.length + 1) q cd 0 0 [] s with
    | error y => exact fun e => e.elim
    | ok y =>
      obtain ⟨m', k, r⟩ := x
      obtain ⟨d, r'⟩ := y
      rintro ⟨a', rfl, rfl⟩
      dsimp only
      cases checkChars (runes ((content m').take k)) with
      | some e => exact rfl
      | none => exact ⟨a', rfl, rfl⟩

/-- The same for results of any kind, with what they are in memory. -/
def SimV {α β : Type} (m : Mem) (see : Mem → α → β) : Except XErr (Mem × α) → Except XErr β → Prop
  | .error e, .error e' => e = e'
  | .ok (m', x), .ok y => After m m' ∧ see m' x = y
  | _, _ => False

theorem name_sim (g : Nat → Nat) {m : Mem} (h : Ok m) (s : Bytes) : SimV m (fun _ x => x) (nameM g m s) (readXmlName s) := by
  simp only [nameM, readXmlName]
  cases readName s with
  | error e => rfl
  | ok x =>
    obtain ⟨nm, r⟩ := x
    have a := after_steps g h (.reset :: nm.map .put)
    have e : content (steps g m (.reset :: nm.map .put)) = nm := by
      rw [(steps_all g _ m h).2.1]; simp [Op.on, puts_on]
    cases nm with
    | nil => exact ⟨a, rfl⟩
    | cons c nm =>
      dsimp only
      rw [if_neg (by simp), e]
      split
      · exact ⟨a, rfl⟩
      · rfl

theorem nsname_sim (g : Nat → Nat) {m : Mem} (h : Ok m) (s : Bytes) : SimV m (fun _ x => x) (nsnameM g m s) (nsname s) := by
  have e := name_sim g h s
  simp only [nsnameM, nsname]
  revert e
  cases nameM g m s with
  | error x =>
    cases readXmlName s with
    | error y => exact fun e => e
    | ok y => exact fun e => e.elim
  | ok x =>
    cases readXmlName s with
    | error y => exact fun e => e.elim
    | ok y =>
      obtain ⟨m', x⟩ := x
      rintro ⟨a, rfl⟩
      cases x with
      | none => exact ⟨a, rfl⟩
      | some x =>
        obtain ⟨nm, r⟩ := x
        dsimp only
        cases splitName nm with
        | none => exact ⟨a, rfl⟩
        | some n => exact ⟨a, rfl⟩

theorem readAttr_sim (g : Nat → Nat) {m : Mem} (h : Ok m) (s : Bytes) : SimV m (fun _ x => x) (readAttrM g m s) (readAttr s) := by
  have e := nsname_sim g h s
  simp only [readAttrM, readAttr]
  revert e
  cases nsnameM g m s with
  | error x =>
    cases nsname s with
    | error y => exact fun e => e
    | ok y => exact fun e => e.elim
  | ok x =>
    cases nsname s with
    | error y => exact fun e => e.elim
    | ok y =>
      obtain ⟨m', x⟩ := x
      rintro ⟨a, rfl⟩
      cases x with
      | none => rfl
      | some x =>
        obtain ⟨n, r⟩ := x
        dsimp only
        cases skipSpace r with
        | nil => rfl
        | cons b r1 =>
          dsimp only
          split
          · rfl
          · cases skipSpace r1 with
            | nil => rfl
            | cons c r2 =>
              simp only [attrval]
              split
              · have e := textFull_sim g a.ok (some c) false r2
                revert e
                cases textFull g m' (some c) false r2 with
                | error x =>
                  cases text (some c) false r2 with
                  | error y => exact fun e => e
                  | ok y => exact fun e => e.elim
                | ok x =>
                  cases text (some c) false r2 with
                  | error y => exact fun e => e.elim
                  | ok y =>
                    obtain ⟨m2, k, r3⟩ := x
                    obtain ⟨d, r4⟩ := y
                    rintro ⟨a2, rfl, rfl⟩
                    exact ⟨a.trans a2, rfl⟩
              · rfl

theorem attrs_sim (g : Nat → Nat) : ∀ (n : Nat) (acc : List Attr) (m : Mem) (s : Bytes), Ok m →
    SimV m (fun _ x => x) (attrLoopM g n acc m s) (attrLoop n acc s)
  | 0, _, _, _, _ => rfl
  | n + 1, acc, m, s, h => by
    simp only [attrLoopM, attrLoop]
    cases skipSpace s with
    | nil => rfl
    | cons b r =>
      dsimp only
      split
      · cases r with
        | nil => rfl
        | cons c r' =>
          dsimp only
          split
          · rfl
          · exact ⟨.refl h, rfl⟩
      · split
        · exact ⟨.refl h, rfl⟩
        · have e := readAttr_sim g h (b :: r)
          revert e
          cases readAttrM g m (b :: r) with
          | error x =>
            cases readAttr (b :: r) with
            | error y => exact fun e => e
            | ok y => exact fun e => e.elim
          | ok x =>
            cases readAttr (b :: r) with
            | error y => exact fun e => e.elim
            | ok y =>
              obtain ⟨m', x, r'⟩ := x
              rintro ⟨a, rfl⟩
              dsimp only
              have := attrs_sim g n (acc ++ [x]) m' r' a.ok
              revert this
              cases attrLoopM g n (acc ++ [x]) m' r' with
              | error x' =>
                cases attrLoop n (acc ++ [x]) r' with
                | error y => exact fun e => e
                | ok y => exact fun e => e.elim
              | ok x' =>
                cases attrLoop n (acc ++ [x]) r' with
                | error y => exact fun e => e.elim
                | ok y => exact fun e => ⟨a.trans e.1, e.2⟩

theorem front_bytes (m : Mem) (n : Nat) : (front m n).bytes m = (content m).take n := by
  simp only [front, Slice.bytes, content, List.take_take]

/-- What one sees of a token and where the decoder is. -/
def seeTok (m : Mem) (x : MTok × Raw) : Token × Raw := (x.1.see m, x.2)

/-- From a loop to a token. -/
theorem slice_sim {m : Mem} {x : Except XErr (Mem × Nat × Bytes)} {y : Except XErr (Bytes × Bytes)}
    (f : Slice → MTok) (f' : Bytes → Token) (hf : ∀ (m : Mem) s, (f s).see m = f' (s.bytes m)) :
    Sim m x y → SimV m seeTok (match x with | .error e => .error e | .ok (m', n, r) => .ok (m', f (front m' n), ⟨r, none⟩))
      (match y with | .error e => .error e | .ok (d, r) => .ok (f' d, ⟨r, none⟩)) := by
  cases x with
  | error x =>
    cases y with
    | error y => exact fun e => e
    | ok y => exact fun e => e.elim
  | ok x =>
    cases y with
    | error y => exact fun e => e.elim
    | ok y =>
      obtain ⟨m', k, r⟩ := x
      obtain ⟨d, r'⟩ := y
      rintro ⟨a, rfl, rfl⟩
      exact ⟨a, by simp only [seeTok, hf, front_bytes]⟩

theorem SimV.from {α β : Type} {see : Mem → α → β} {a b : Mem} (h : After a b) : ∀ {x y}, SimV b see x y → SimV a see x y
  | .error _, .error _, k => k
  | .ok _, .ok _, k => ⟨h.trans k.1, k.2⟩
  | .error _, .ok _, k => k
  | .ok _, .error _, k => k

theorem bang_sim (g : Nat → Nat) {m : Mem} (h : Ok m) (s : Bytes) : SimV m seeTok (bangM g m s) (bangTag s) := by
  cases s with
  | nil => rfl
  | cons b r =>
    simp only [bangM, bangTag]
    split
    · cases r with
      | nil => rfl
      | cons c r1 =>
        dsimp only
        split
        · rfl
        · have a := after_step g h .reset
          have e := comment_sim g r1 0 0 _ a.ok
          rw [content_reset] at e
          exact slice_sim .comment .comment (fun _ _ => rfl) (e.from a)
    · split
      · cases cdataOpen b!"CDATA[" r with
        | error e => rfl
        | ok r1 => exact slice_sim .chars .charData (fun _ _ => rfl) (textFull_sim g h none true r1)
      · have a := after_steps g h [.reset, .put b]
        have e := dir_sim g (r.length + 1) false 0 0 _ r a.ok
        rw [(steps_all g _ m h).2.1] at e
        exact slice_sim .directive .directive (fun _ _ => rfl) (e.from a)

theorem piTag_sim (g : Nat → Nat) {m : Mem} (h : Ok m) (s : Bytes) : SimV m seeTok (piTagM g m s) (piTag s) := by
  have e := name_sim g h s
  simp only [piTagM, piTag]
  revert e
  cases nameM g m s with
  | error x =>
    cases readXmlName s with
    | error y => exact fun e => e
    | ok y => exact fun e => e.elim
  | ok x =>
    cases readXmlName s with
    | error y => exact fun e => e.elim
    | ok y =>
      obtain ⟨m1, x⟩ := x
      rintro ⟨a, rfl⟩
      cases x with
      | none => rfl
      | some x =>
        obtain ⟨target, r⟩ := x
        dsimp only
        have a1 := after_step g a.ok .reset
        have e := pi_sim g (skipSpace r) 0 _ a1.ok
        rw [content_reset] at e
        replace e := (e.from a1).from a
        revert e
        cases piM g 0 (step g m1 .reset) (skipSpace r) with
        | error x =>
          cases piLoop 0 [] (skipSpace r) with
          | error y => exact fun e => e
          | ok y => exact fun e => e.elim
        | ok x =>
          cases piLoop 0 [] (skipSpace r) with
          | error y => exact fun e => e.elim
          | ok y =>
            obtain ⟨m2, k, r1⟩ := x
            obtain ⟨d, r2⟩ := y
            rintro ⟨a2, rfl, rfl⟩
            dsimp only
            cases checkXmlDecl target ((content m2).take k) with
            | some e => exact rfl
            | none => exact ⟨a2, by simp only [seeTok, MTok.see, front_bytes]⟩

theorem endTag_sim (g : Nat → Nat) {m : Mem} (h : Ok m) (s : Bytes) : SimV m seeTok (endTagM g m s) (endTag s) := by
  have e := nsname_sim g h s
  simp only [endTagM, endTag]
  revert e
  cases nsnameM g m s with
  | error x =>
    cases nsname s with
    | error y => exact fun e => e
    | ok y => exact fun e => e.elim
  | ok x =>
    cases nsname s with
    | error y => exact fun e => e.elim
    | ok y =>
      obtain ⟨m1, x⟩ := x
      rintro ⟨a, rfl⟩
      cases x with
      | none => rfl
      | some x =>
        obtain ⟨n, r⟩ := x
        dsimp only
        cases skipSpace r with
        | nil => rfl
        | cons b r1 =>
          dsimp only
          split
          · rfl
          · exact ⟨a, rfl⟩

theorem startTag_sim (g : Nat → Nat) {m : Mem} (h : Ok m) (s : Bytes) : SimV m seeTok (startTagM g m s) (startTag s) := by
  have e := nsname_sim g h s
  simp only [startTagM, startTag]
  revert e
  cases nsnameM g m s with
  | error x =>
    cases nsname s with
    | error y => exact fun e => e
    | ok y => exact fun e => e.elim
  | ok x =>
    cases nsname s with
    | error y => exact fun e => e.elim
    | ok y =>
      obtain ⟨m1, x⟩ := x
      rintro ⟨a, rfl⟩
      cases x with
      | none => rfl
      | some x =>
        obtain ⟨n, r⟩ := x
        dsimp only
        have e := attrs_sim g (r.length + 1) [] m1 r a.ok
        revert e
        cases attrLoopM g (r.length + 1) [] m1 r with
        | error x =>
          cases attrLoop (r.length + 1) [] r with
          | error y => exact fun e => e
          | ok y => exact fun e => e.elim
        | ok x =>
          cases attrLoop (r.length + 1) [] r with
          | error y => exact fun e => e.elim
          | ok y =>
            obtain ⟨m2, attrs, empty, r'⟩ := x
            rintro ⟨a2, rfl⟩
            exact ⟨a.trans a2, rfl⟩

/-- **C91**: the token that `rawToken` returns is, at that time, the token of the model with values; and no memory is changed but
that of the buffer. -/
theorem C91_rawToken (g : Nat → Nat) {m : Mem} (h : Ok m) (st : Raw) : SimV m seeTok (rawTokenM g m st) (rawToken st) := by
  obtain ⟨rest, cl⟩ := st
  cases cl with
  | some n => exact ⟨.refl h, rfl⟩
  | none =>
    cases rest with
    | nil => rfl
    | cons b r =>
      simp only [rawTokenM, rawToken]
      split
      · exact slice_sim .chars .charData (fun _ _ => rfl) (textFull_sim g h none false (b :: r))
      · cases r with
        | nil => rfl
        | cons c r1 =>
          dsimp only
          split
          · exact endTag_sim g h r1
          split
          · exact piTag_sim g h r1
          split
          · exact bang_sim g h r1
          · exact startTag_sim g h (c :: r1)

/-- The bytes of a token are in arrays that the buffer does not use. -/
def MTok.Own (m : Mem) : MTok → Prop
  | .val _ => True
  | .chars s | .comment s | .inst _ s | .directive s => s.at' ≠ m.cur ∧ s.at' < m.next

theorem own_after {a b : Mem} (h : After a b) {t : MTok} (ht : t.Own a) : t.see b = t.see a ∧ t.Own b := by
  cases t with
  | val t => exact ⟨rfl, trivial⟩
  | chars s | comment s | inst _ s | directive s =>
    obtain ⟨x1, x2, x3⟩ := h.frame _ ht.1 ht.2
    exact ⟨by simp only [MTok.see, Slice.bytes, x1], x2, x3⟩

theorem after_clone {m : Mem} (h : Ok m) (s : Slice) : After m (clone m s).1 := by
  obtain ⟨c1, -, -, -, -, c6⟩ := clone_all h s
  exact ⟨c1, c6⟩

theorem copy_own {m : Mem} (h : Ok m) (t : MTok) : After m (t.copy m).1 ∧ (t.copy m).2.Own (t.copy m).1 ∧
    (t.copy m).2.see (t.copy m).1 = t.see m := by
  cases t with
  | val t => exact ⟨.refl h, trivial, rfl⟩
  | chars s | comment s | inst _ s | directive s =>
    obtain ⟨-, -, c3, c4, c5, -⟩ := clone_all h s
    exact ⟨after_clone h s, ⟨c4, c5⟩, by simp only [MTok.copy, MTok.see, c3]⟩

theorem collect_after (g : Nat → Nat) (cp : Bool) : ∀ (k : Nat) (m : Mem) (st : Raw), Ok m → After m (collect g cp k m st).1
  | 0, m, _, h => .refl h
  | k + 1, m, st, h => by
    have e := C91_rawToken g h st
    simp only [collect]
    revert e
    cases rawTokenM g m st with
    | error x => exact fun _ => .refl h
    | ok x =>
      cases rawToken st with
      | error y => exact fun e => e.elim
      | ok y =>
        obtain ⟨m', t, st'⟩ := x
        rintro ⟨a, -⟩
        cases cp with
        | false => exact a.trans (collect_after g false k m' st' a.ok)
        | true => exact a.trans ((copy_own a.ok t).1.trans (collect_after g true k _ st' (copy_own a.ok t).1.ok))

/-- **C91**: a program that reads a document and keeps copies of the tokens has, at the end, the tokens of the document, whatever
the document is, and the same error. -/
theorem C91_document (g : Nat → Nat) : ∀ (k : Nat) (m : Mem) (st : Raw), Ok m →
    ((collect g true k m st).2.1.map (·.see (collect g true k m st).1), (collect g true k m st).2.2) = collected k st
  | 0, m, _, h => rfl
  | k + 1, m, st, h => by
    have e := C91_rawToken g h st
    simp only [collect, collected]
    revert e
    cases rawTokenM g m st with
    | error x =>
      cases rawToken st with
      | error y => rintro rfl; rfl
      | ok y => exact fun e => e.elim
    | ok x =>
      cases rawToken st with
      | error y => exact fun e => e.elim
      | ok y =>
        obtain ⟨m', t, st'⟩ := x
        rintro ⟨a, rfl⟩
        obtain ⟨b1, b2, b3⟩ := copy_own a.ok t
        have ih := C91_document g k (t.copy m').1 st' b1.ok
        have c := own_after (collect_after g true k _ st' b1.ok) b2
        simp only [if_true, seeTok, ← ih, List.map_cons]
        rw [c.1, b3]

/-- The document of the example. -/
def keptDoc : Bytes := b!"<a>one &lt;<b c='d'/>two<!--three--></a>"

/-- With copies the tokens are those of the document. -/
example : (collect (fun n => n + 60) true 9 Mem.new ⟨keptDoc, none⟩).2.1.map (·.see (collect (fun n => n + 60) true 9 Mem.new ⟨keptDoc, none⟩).1) =
    [.startElement ⟨[], b!"a"⟩ [], .charData (b!"one <"), .startElement ⟨[], b!"b"⟩ [⟨⟨[], b!"c"⟩, b!"d"⟩], .endElement ⟨[], b!"b"⟩,
      .charData (b!"two"), .comment (b!"three"), .endElement ⟨[], b!"a"⟩] := by decide +kernel

/-- **C91** is false of tokens that are kept without copies: the texts are overwritten by names, comments and each other. -/
theorem C91_document_refuted : (collect (fun n => n + 60) false 9 Mem.new ⟨keptDoc, none⟩).2.1.map
      (·.see (collect (fun n => n + 60) false 9 Mem.new ⟨keptDoc, none⟩).1) =
    [.startElement ⟨[], b!"a"⟩ [], .charData (b!"ahree"), .startElement ⟨[], b!"b"⟩ [⟨⟨[], b!"c"⟩, b!"d"⟩], .endElement ⟨[], b!"b"⟩,
      .charData (b!"ahr"), .comment (b!"ahree"), .endElement ⟨[], b!"a"⟩] := by decide +kernel

end Verif.Shared
