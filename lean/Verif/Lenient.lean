import Verif.Loose

/-!
C79: the decoder with `Strict = false` and an `Entity` map, on bytes: what it makes of references it does not know, of attribute values without
quotes and of attributes without a value (`/repo/xml/xml.go` 152-191, 300-369, 588-924, 1024-1197).
-/
namespace Verif.Lenient

open Verif.Xml Verif.Utf8

/-- The settings of a decoder (`/repo/xml/xml.go` 152-191): `Strict`, `AutoClose` and the map `Entity`, as its lookup function. -/
structure Cfg extends Loose.Cfg where
  ent : Bytes → Option Bytes

/-- The end of the handling of a reference that is not understood: an error in strict mode, the text `t` as it stands otherwise
(`/repo/xml/xml.go` 1154-1163). -/
def bad (c : Cfg) (t r : Bytes) : Except XErr (Bytes × Bytes) := if c.strict then .error badEntity else .ok (t, r)

/-- The numeric reference after `pre`, which is `&#` or `&#x` (`/repo/xml/xml.go` 1093-1120); a byte other than `;` after the digits is put
back. -/
def numRef (c : Cfg) (hex : Bool) (pre s : Bytes) : Except XErr (Bytes × Bytes) :=
  match s.dropWhile (isRefDigit hex) with
  | [] => .error unexpectedEOF
  | b :: r =>
    if b ≠ ch%';' then bad c (pre ++ s.takeWhile (isRefDigit hex)) (b :: r)
    else if s.takeWhile (isRefDigit hex) ≠ [] ∧ refVal hex (s.takeWhile (isRefDigit hex)) ≤ 0x10FFFF then
      .ok (encodeRune (refVal hex (s.takeWhile (isRefDigit hex))), r)
    else bad c (pre ++ s.takeWhile (isRefDigit hex) ++ [b]) r

/-- The named reference after `&` (`/repo/xml/xml.go` 1121-1146): the predefined names first, then `Entity`. -/
def nameRef (c : Cfg) (s : Bytes) : Except XErr (Bytes × Bytes) :=
  match readName s with
  | .error e => .error e
  | .ok (_, []) => .error unexpectedEOF
  | .ok (nm, b :: r) =>
    if b ≠ ch%';' then bad c (ch%'&' :: nm) (b :: r)
    else if isName nm then
      match entity nm with
      | some x => .ok (encodeRune x, r)
      | none =>
        match c.ent nm with
        | some t => .ok (t, r)
        | none => bad c (ch%'&' :: nm ++ [b]) r
    else bad c (ch%'&' :: nm ++ [b]) r

/-- A reference, after its `&` (`/repo/xml/xml.go` 1074-1164): what is appended to the text and the remaining input. -/
def entityRef (c : Cfg) : Bytes → Except XErr (Bytes × Bytes)
  | [] => .error unexpectedEOF
  | [b] => if b = ch%'#' then .error unexpectedEOF else nameRef c [b]
  | b :: x :: r =>
    if b = ch%'#' then (if x = ch%'x' then numRef c true (b!"&#x") r else numRef c false (b!"&#") (x :: r))
    else nameRef c (b :: x :: r)

/-- The loop of `text` (`/repo/xml/xml.go` 1029-1177), as `Xml.textLoop`. -/
def textLoop (c : Cfg) : Nat → Option UInt8 → Bool → UInt8 → UInt8 → Bytes → Bytes → Except XErr (Bytes × Bytes)
  | 0, _, _, _, _, _, _ => .error unexpectedEOF
  | _ + 1, _, cd, _, _, buf, [] =>
    if cd then .error (.syntaxError "unexpected EOF in CDATA section") else .ok (buf, [])
  | n + 1, q, cd, b0, b1, buf, b :: r =>
    if q = none ∧ b0 = ch%']' ∧ b1 = ch%']' ∧ b = ch%'>' then
      (if cd then .ok (buf.take (buf.length - 2), r)
       else .error (.syntaxError "unescaped ]]> not in CDATA section"))
    else if b = ch%'<' ∧ cd = false then
      (if q ≠ none then .error (.syntaxError "unescaped < inside quoted string") else .ok (buf, b :: r))
    else if b = ch%'>' ∧ cd = false ∧ q = none then .ok (buf, b :: r)
    else if q = some b then .ok (buf, r)
    else if b = ch%'&' ∧ cd = false then
      match entityRef c r with
      | .error e => .error e
      | .ok (t, r') => textLoop c n q cd 0 0 (buf ++ t) r'
    else textLoop c n q cd b1 b (buf ++ putByte b1 b) r

/-- `text` (`/repo/xml/xml.go` 1024-1197). -/
def text (c : Cfg) (q : Option UInt8) (cd : Bool) (s : Bytes) : Except XErr (Bytes × Bytes) :=
  match textLoop c (s.length + 1) q cd 0 0 [] s with
  | .error e => .error e
  | .ok (data, r) =>
    match checkChars (runes data) with
    | some e => .error e
    | none => .ok (data, r)

/-- A byte of an attribute value without quotes (`/repo/xml/xml.go` 916-917). -/
def isValByte (b : UInt8) : Bool :=
  (decide (97 ≤ b.toNat) && decide (b.toNat ≤ 122)) || (decide (65 ≤ b.toNat) && decide (b.toNat ≤ 90)) ||
    (decide (48 ≤ b.toNat) && decide (b.toNat ≤ 57)) || b == ch%'_' || b == ch%':' || b == ch%'-'

/-- `attrval` (`/repo/xml/xml.go` 892-924). -/
def attrval (c : Cfg) : Bytes → Except XErr (Bytes × Bytes)
  | [] => .error unexpectedEOF
  | b :: r =>
    if b = ch%'"' ∨ b = ch%'\'' then text c (some b) false r
    else if c.strict then .error (.syntaxError "unquoted or missing attribute value in element")
    else
      match (b :: r).dropWhile isValByte with
      | [] => .error unexpectedEOF
      | r' => .ok ((b :: r).takeWhile isValByte, r')

/-- One attribute (`/repo/xml/xml.go` 858-881).  Without a `=`, the byte read in its place is not put back. -/
def readAttr (c : Cfg) (s : Bytes) : Except XErr (Attr × Bytes) :=
  match nsname s with
  | .error e => .error e
  | .ok none => .error (.syntaxError "expected attribute name in element")
  | .ok (some (n, r)) =>
    match skipSpace r with
    | [] => .error unexpectedEOF
    | b :: r1 =>
      if b ≠ ch%'=' then
        (if c.strict then .error (.syntaxError "attribute name without = in element") else .ok (⟨n, n.loc⟩, r1))
      else
        match attrval c (skipSpace r1) with
        | .error e => .error e
        | .ok (v, r2) => .ok (⟨n, v⟩, r2)

/-- The attribute loop of a start element (`/repo/xml/xml.go` 833-883), as `Xml.attrLoop`; also the error left in `d.err` when the input ends
after an attribute. -/
def attrLoop (c : Cfg) : Nat → List Attr → Bytes → Except XErr (List Attr × Bool × Bytes × Option XErr)
  | 0, _, _ => .error unexpectedEOF
  | n + 1, acc, s =>
    match skipSpace s with
    | [] => if acc ≠ [] ∧ c.strict = false then .ok (acc, false, [], some unexpectedEOF) else .error unexpectedEOF
    | b :: r =>
      if b = ch%'/' then
        match r with
        | [] => .error unexpectedEOF
        | x :: r' => if x ≠ ch%'>' then .error (.syntaxError "expected /> in element") else .ok (acc, true, r', none)
      else if b = ch%'>' then .ok (acc, false, r, none)
      else
        match readAttr c (b :: r) with
        | .error e => .error e
        | .ok (a, r') => attrLoop c n (acc ++ [a]) r'

/-- The part of `Decoder` used by `rawToken`: as `Xml.Raw`, and `d.err`. -/
structure LRaw where
  rest : Bytes
  toClose : Option Name
  err : Option XErr
  deriving DecidableEq, Repr

/-- A strict decoder's state. -/
def ofRaw (r : Raw) : LRaw := ⟨r.rest, r.toClose, none⟩

/-- The result of a part of `rawToken` that does not depend on the settings. -/
def lift : Except XErr (Token × Raw) → Except XErr (Token × LRaw)
  | .error e => .error e
  | .ok (t, r) => .ok (t, ofRaw r)

/-- `<!...` after `<!` (`/repo/xml/xml.go` 692-815): a CDATA section is read by `text`, where the settings play no part. -/
def bangTag (c : Cfg) : Bytes → Except XErr (Token × LRaw)
  | [] => .error unexpectedEOF
  | b :: r =>
    if b = ch%'[' then
      match cdataOpen b!"CDATA[" r with
      | .error e => .error e
      | .ok r1 =>
        match text c none true r1 with
        | .error e => .error e
        | .ok (d, r2) => .ok (.charData d, ⟨r2, none, none⟩)
    else lift (Xml.bangTag (b :: r))

/-- `<name attrs>` or `<name attrs/>` after `<` (`/repo/xml/xml.go` 818-889). -/
def startTag (c : Cfg) (s : Bytes) : Except XErr (Token × LRaw) :=
  match nsname s with
  | .error e => .error e
  | .ok none => .error (.syntaxError "expected element name after <")
  | .ok (some (n, r)) =>
    match attrLoop c (r.length + 1) [] r with
    | .error e => .error e
    | .ok (attrs, empty, r', e) => .ok (.startElement n attrs, ⟨r', if empty then some n else none, e⟩)

/-- `rawToken` (`/repo/xml/xml.go` 588-889). -/
def rawToken (c : Cfg) (st : LRaw) : Except XErr (Token × LRaw) :=
  match st.err with
  | some e => .error e
  | none =>
    match st.toClose with
    | some n => .ok (.endElement n, ⟨st.rest, none, none⟩)
    | none =>
      match st.rest with
      | [] => .error .eof
      | b :: r =>
        if b ≠ ch%'<' then
          match text c none false (b :: r) with
          | .error e => .error e
          | .ok (d, r') => .ok (.charData d, ⟨r', none, none⟩)
        else
          match r with
          | [] => .error unexpectedEOF
          | x :: r1 =>
            if x = ch%'/' then lift (endTag r1)
            else if x = ch%'?' then lift (piTag r1)
            else if x = ch%'!' then bangTag c r1
            else startTag c (x :: r1)

/-- The part of `Decoder` used by `Token`. -/
structure D where
  raw : LRaw
  ns : NsMap
  stk : List Stk
  next : Option Token

/-- A new decoder on an input (`/repo/xml/xml.go` 243-258). -/
def D.new (s : Bytes) : D := ⟨⟨s, none, none⟩, fun _ => none, [], none⟩

/-- What `Loose.token.after` looks at. -/
def D.view (d : D) : Loose.L := ⟨d.stk, d.ns, [], .eof, d.next, d.raw.toClose⟩

/-- The decoder after `Loose.token.after`. -/
def D.put (d : D) (s : Loose.L) : D := ⟨{ d.raw with toClose := s.close }, s.ns, s.stk, s.next⟩

/-- The second half of `Token` (`/repo/xml/xml.go` 320-368), as in `Loose`. -/
def finish (c : Cfg) (d : D) (t : Token) : Except XErr (Token × D) :=
  match Loose.token.after c.toCfg d.view t with
  | .error e => .error e
  | .ok (t', s) => .ok (t', d.put s)

/-- `Token` (`/repo/xml/xml.go` 300-369). -/
def token (c : Cfg) (d : D) : Except XErr (Token × D) :=
  match d.next with
  | some t => finish c { d with next := none } t
  | none =>
    match rawToken c d.raw with
    | .error e => .error (if e = .eof ∧ d.stk ≠ [] then unexpectedEOF else e)
    | .ok (t, raw') => finish c { d with raw := raw' } t

/-- The first `n` calls of `Token`: the tokens and the error that ended them, if any. -/
def run (c : Cfg) : Nat → D → List Token × Option XErr
  | 0, _ => ([], none)
  | n + 1, d =>
    match token c d with
    | .error e => ([], some e)
    | .ok (t, d') => (t :: (run c n d').1, (run c n d').2)

end Verif.Lenient
