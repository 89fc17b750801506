import Verif.XmlText

/-!
The tokenizer of the `xml` package: `rawToken` and `Token` (`/repo/xml/xml.go` 300-1012, 1211-1277, 2095-2123) in
strict mode, without a `TokenReader`, `CharsetReader`, custom entities or `AutoClose` (none of which `Unmarshal` sets).
-/
namespace Verif.Xml

open Verif.Utf8

/-- `Name` (`/repo/xml/xml.go` 43-45). -/
structure Name where
  space : Bytes
  loc : Bytes
  deriving DecidableEq, Repr

/-- `Attr` (`/repo/xml/xml.go` 48-51). -/
structure Attr where
  name : Name
  value : Bytes
  deriving DecidableEq, Repr

/-- `Token` (`/repo/xml/xml.go` 53-139). -/
inductive Token where
  | startElement (name : Name) (attrs : List Attr)
  | endElement (name : Name)
  | charData (b : Bytes)
  | comment (b : Bytes)
  | procInst (target inst : Bytes)
  | directive (b : Bytes)
  deriving DecidableEq, Repr

/-- The part of `Decoder` used by `rawToken`: the remaining input and, after a self-closing tag, the name of the end
element still to be returned (`needClose`, `toClose`). -/
structure Raw where
  rest : Bytes
  toClose : Option Name
  deriving DecidableEq, Repr

/-- A byte skipped by `space` (`/repo/xml/xml.go` 933-934). -/
def isSpace (b : UInt8) : Bool := b == ch%' ' || b == ch%'\r' || b == ch%'\n' || b == ch%'\t'

/-- `space` (`/repo/xml/xml.go` 926-940). -/
def skipSpace (s : Bytes) : Bytes := s.dropWhile isSpace

/-- `name` (`/repo/xml/xml.go` 1234-1250): `none` when no name is present; the name is interned without changing it. -/
def readXmlName (s : Bytes) : Except XErr (Option (Bytes × Bytes)) :=
  match readName s with
  | .error e => .error e
  | .ok ([], _) => .ok none
  | .ok (nm, r) => if isName nm then .ok (some (nm, r)) else .error (.syntaxError "invalid XML name: ")

/-- The split of a name at its colon in `nsname` (`/repo/xml/xml.go` 1218-1231). -/
def splitName (s : Bytes) : Option Name :=
  let pre := s.takeWhile (· != ch%':')
  let post := s.dropWhile (· != ch%':')
  match post with
  | [] => some ⟨[], s⟩
  | _ :: loc =>
    if ch%':' ∈ loc then none
    else if pre = [] ∨ loc = [] then none
    else some ⟨pre, loc⟩

/-- `nsname` (`/repo/xml/xml.go` 1211-1232): `none` when it reports `ok == false` without setting an error. -/
def nsname (s : Bytes) : Except XErr (Option (Name × Bytes)) :=
  match readXmlName s with
  | .error e => .error e
  | .ok none => .ok none
  | .ok (some (nm, r)) =>
    match splitName nm with
    | none => .ok none
    | some n => .ok (some (n, r))

/-- `attrval` (`/repo/xml/xml.go` 892-905). -/
def attrval : Bytes → Except XErr (Bytes × Bytes)
  | [] => .error unexpectedEOF
  | b :: r =>
    if b = ch%'"' ∨ b = ch%'\'' then text (some b) false r
    else .error (.syntaxError "unquoted or missing attribute value in element")

/-- One attribute, `name = value` (`/repo/xml/xml.go` 858-881). -/
def readAttr (s : Bytes) : Except XErr (Attr × Bytes) :=
  match nsname s with
  | .error e => .error e
  | .ok none => .error (.syntaxError "expected attribute name in element")
  | .ok (some (n, r)) =>
    match skipSpace r with
    | [] => .error unexpectedEOF
    | b :: r1 =>
      if b ≠ ch%'=' then .error (.syntaxError "attribute name without = in element")
      else
        match attrval (skipSpace r1) with
        | .error e => .error e
        | .ok (v, r2) => .ok (⟨n, v⟩, r2)

/-- The attribute loop of a start element (`/repo/xml/xml.go` 833-883): the attributes, whether the element is
self-closing, and the remaining input.  Fuel: one unit per attribute. -/
def attrLoop : Nat → List Attr → Bytes → Except XErr (List Attr × Bool × Bytes)
  | 0, _, _ => .error unexpectedEOF
  | n + 1, acc, s =>
    match skipSpace s with
    | [] => .error unexpectedEOF
    | b :: r =>
      if b = ch%'/' then
        match r with
        | [] => .error unexpectedEOF
        | c :: r' => if c ≠ ch%'>' then .error (.syntaxError "expected /> in element") else .ok (acc, true, r')
      else if b = ch%'>' then .ok (acc, false, r)
      else
        match readAttr (b :: r) with
        | .error e => .error e
        | .ok (a, r') => attrLoop n (acc ++ [a]) r'

/-- The body of a processing instruction up to `?>` (`/repo/xml/xml.go` 650-664). -/
def piLoop : UInt8 → Bytes → Bytes → Except XErr (Bytes × Bytes)
  | _, _, [] => .error unexpectedEOF
  | b0, buf, b :: r =>
    if b0 = ch%'?' ∧ b = ch%'>' then .ok ((buf ++ [b]).take ((buf ++ [b]).length - 2), r)
    else piLoop b (buf ++ [b]) r

/-- `strings.Index`. -/
def index : Bytes → Bytes → Option Nat
  | [], p => if p = [] then some 0 else none
  | b :: t, p => if p.isPrefixOf (b :: t) then some 0 else (index t p).map (· + 1)

/-- The search loop of `procInst` (`/repo/xml/xml.go` 2104-2115): the quote found and the text after it. -/
def procInstLoop : Nat → Bytes → Bytes → Option (UInt8 × Bytes)
  | 0, _, _ => none
  | n + 1, param, sub =>
    if sub = [] then none
    else
      match index sub param with
      | none => none
      | some k =>
        match sub.drop (param.length + k) with
        | [] => none
        | c :: r => if c = ch%'\'' ∨ c = ch%'"' then some (c, r) else procInstLoop n param r

/-- `procInst` (`/repo/xml/xml.go` 2097-2123). -/
def procInst (param s : Bytes) : Bytes :=
  match procInstLoop (s.length + 1) (param ++ [ch%'=']) s with
  | none => []
  | some (sep, r) => if sep ∈ r then r.takeWhile (· != sep) else []

/-- `strings.EqualFold(s, "utf-8")`: none of its letters folds with a character outside ASCII. -/
def isUtf8Name (s : Bytes) : Bool :=
  s.map (fun b => if 65 ≤ b.toNat ∧ b.toNat ≤ 90 then b + 32 else b) == b!"utf-8"

/-- The checks of the XML declaration (`/repo/xml/xml.go` 666-689), with a nil `CharsetReader`. -/
def checkXmlDecl (target data : Bytes) : Option XErr :=
  if target = b!"xml" then
    if procInst b!"version" data ≠ [] ∧ procInst b!"version" data ≠ b!"1.0" then
      some (.other "xml: unsupported version; only version 1.0 is supported")
    else if procInst b!"encoding" data ≠ [] ∧ isUtf8Name (procInst b!"encoding" data) = false then
      some (.other "xml: encoding declared but Decoder.CharsetReader is nil")
    else none
  else none

/-- A comment after `<!--` (`/repo/xml/xml.go` 707-727). -/
def commentLoop : UInt8 → UInt8 → Bytes → Bytes → Except XErr (Bytes × Bytes)
  | _, _, _, [] => .error unexpectedEOF
  | b0, b1, buf, b :: r =>
    if b0 = ch%'-' ∧ b1 = ch%'-' then
      if b ≠ ch%'>' then .error (.syntaxError "invalid sequence \"--\" not allowed in comments")
      else .ok ((buf ++ [b]).take ((buf ++ [b]).length - 3), r)
    else commentLoop b1 b (buf ++ [b]) r

/-- The end of a comment inside a directive (`/repo/xml/xml.go` 796-806). -/
def skipComment : UInt8 → UInt8 → Bytes → Except XErr Bytes
  | _, _, [] => .error unexpectedEOF
  | b0, b1, b :: r => if b0 = ch%'-' ∧ b1 = ch%'-' ∧ b = ch%'>' then .ok r else skipComment b1 b r

/-- The start of a comment after `<` in a directive (`/repo/xml/xml.go` 779-791). -/
inductive DirLt where
  | eof
  | notComment (written rest : Bytes)
  | comment (rest : Bytes)

/-- Looks for `!--` after a `<` in a directive (`/repo/xml/xml.go` 779-791). -/
def dirLt : Bytes → DirLt
  | [] => .eof
  | a :: s =>
    if a ≠ ch%'!' then .notComment [] (a :: s)
    else match s with
      | [] => .eof
      | b :: t =>
        if b ≠ ch%'-' then .notComment (b!"!") (b :: t)
        else match t with
          | [] => .eof
          | c :: u => if c ≠ ch%'-' then .notComment (b!"!-") (c :: u) else .comment u

/-- The directive loop (`/repo/xml/xml.go` 752-814).  `handle` is set when the loop is entered at the label `HandleB`.
Fuel: one unit per iteration. -/
def dirLoop : Nat → Bool → UInt8 → Int → Bytes → Bytes → Except XErr (Bytes × Bytes)
  | 0, _, _, _, _, _ => .error unexpectedEOF
  | _ + 1, _, _, _, _, [] => .error unexpectedEOF
  | n + 1, handle, inq, depth, buf, b :: r =>
    if handle = false ∧ inq = 0 ∧ b = ch%'>' ∧ depth = 0 then .ok (buf, r)
    else if b = inq then dirLoop n false 0 depth (buf ++ [b]) r
    else if inq ≠ 0 then dirLoop n false inq depth (buf ++ [b]) r
    else if b = ch%'\'' ∨ b = ch%'"' then dirLoop n false b depth (buf ++ [b]) r
    else if b = ch%'>' then dirLoop n false inq (depth - 1) (buf ++ [b]) r
    else if b = ch%'<' then
      match dirLt r with
      | .eof => .error unexpectedEOF
      | .notComment w r' => dirLoop n true inq (depth + 1) (buf ++ [b] ++ w) r'
      | .comment r' =>
        match skipComment 0 0 r' with
        | .error e => .error e
        | .ok r'' => dirLoop n false inq depth (buf ++ [ch%' ']) r''
    else dirLoop n false inq depth (buf ++ [b]) r

/-- Checks `CDATA[` after `<![` (`/repo/xml/xml.go` 729-739). -/
def cdataOpen : Bytes → Bytes → Except XErr Bytes
  | [], s => .ok s
  | _ :: _, [] => .error unexpectedEOF
  | c :: p, b :: s => if b ≠ c then .error (.syntaxError "invalid <![ sequence") else cdataOpen p s

/-- `</name>` after `</` (`/repo/xml/xml.go` 622-639). -/
def endTag (s : Bytes) : Except XErr (Token × Raw) :=
  match nsname s with
  | .error e => .error e
  | .ok none => .error (.syntaxError "expected element name after </")
  | .ok (some (n, r)) =>
    match skipSpace r with
    | [] => .error unexpectedEOF
    | b :: r1 =>
      if b ≠ ch%'>' then .error (.syntaxError "invalid characters between </ and >")
      else .ok (.endElement n, ⟨r1, none⟩)

/-- `<?target data?>` after `<?` (`/repo/xml/xml.go` 641-690). -/
def piTag (s : Bytes) : Except XErr (Token × Raw) :=
  match readXmlName s with
  | .error e => .error e
  | .ok none => .error (.syntaxError "expected target name after <?")
  | .ok (some (target, r)) =>
    match piLoop 0 [] (skipSpace r) with
    | .error e => .error e
    | .ok (data, r') =>
      match checkXmlDecl target data with
      | some e => .error e
      | none => .ok (.procInst target data, ⟨r', none⟩)

/-- `<!...` after `<!` (`/repo/xml/xml.go` 692-815). -/
def bangTag : Bytes → Except XErr (Token × Raw)
  | [] => .error unexpectedEOF
  | b :: r =>
    if b = ch%'-' then
      match r with
      | [] => .error unexpectedEOF
      | c :: r1 =>
        if c ≠ ch%'-' then .error (.syntaxError "invalid sequence <!- not part of <!--")
        else
          match commentLoop 0 0 [] r1 with
          | .error e => .error e
          | .ok (d, r2) => .ok (.comment d, ⟨r2, none⟩)
    else if b = ch%'[' then
      match cdataOpen b!"CDATA[" r with
      | .error e => .error e
      | .ok r1 =>
        match text none true r1 with
        | .error e => .error e
        | .ok (d, r2) => .ok (.charData d, ⟨r2, none⟩)
    else
      match dirLoop (r.length + 1) false 0 0 [b] r with
      | .error e => .error e
      | .ok (d, r2) => .ok (.directive d, ⟨r2, none⟩)

/-- `<name attrs>` or `<name attrs/>` after `<` (`/repo/xml/xml.go` 818-889). -/
def startTag (s : Bytes) : Except XErr (Token × Raw) :=
  match nsname s with
  | .error e => .error e
  | .ok none => .error (.syntaxError "expected element name after <")
  | .ok (some (n, r)) =>
    match attrLoop (r.length + 1) [] r with
    | .error e => .error e
    | .ok (attrs, empty, r') => .ok (.startElement n attrs, ⟨r', if empty then some n else none⟩)

/-- `rawToken` (`/repo/xml/xml.go` 588-889).  An error stays: the decoder keeps returning it.  Where Go's `text`
returns a nil slice without an error (an empty text before a `>`), the token here is an empty `charData`; both are
ignored by every caller. -/
def rawToken (st : Raw) : Except XErr (Token × Raw) :=
  match st.toClose with
  | some n => .ok (.endElement n, ⟨st.rest, none⟩)
  | none =>
    match st.rest with
    | [] => .error .eof
    | b :: r =>
      if b ≠ ch%'<' then
        match text none false (b :: r) with
        | .error e => .error e
        | .ok (d, r') => .ok (.charData d, ⟨r', none⟩)
      else
        match r with
        | [] => .error unexpectedEOF
        | c :: r1 =>
          if c = ch%'/' then endTag r1
          else if c = ch%'?' then piTag r1
          else if c = ch%'!' then bangTag r1
          else startTag (c :: r1)

/-! ### `Token`: namespaces and nesting -/

/-- `xmlURL` etc. (`/repo/xml/xml.go` 371-376). -/
def xmlURL : Bytes := b!"http://www.w3.org/XML/1998/namespace"
def xmlPrefix : Bytes := b!"xml"
def xmlnsURL : Bytes := b!"http://www.w3.org/2000/xmlns/"
def xmlnsPrefix : Bytes := b!"xmlns"

/-- A Go `map[string]string`, as its lookup function. -/
abbrev NsMap := Bytes → Option Bytes

/-- `m[k] = v` (`some v`) or `delete(m, k)` (`none`). -/
def NsMap.set (m : NsMap) (k : Bytes) (v : Option Bytes) : NsMap := fun x => if x = k then v else m x

/-- A stack entry (`/repo/xml/xml.go` 412-427); `stkEOF` is only pushed for custom unmarshalers and not modelled. -/
inductive Stk where
  | start (name : Name)
  | ns (loc : Bytes) (old : Option Bytes)
  deriving DecidableEq, Repr

/-- The part of `Decoder` used by `Token`. -/
structure Dec where
  raw : Raw
  ns : NsMap
  stk : List Stk

/-- A new decoder on an input (`/repo/xml/xml.go` 243-258). -/
def Dec.new (s : Bytes) : Dec := ⟨⟨s, none⟩, fun _ => none, []⟩

/-- `translate` (`/repo/xml/xml.go` 378-397), with an empty `DefaultSpace`. -/
def translate (ns : NsMap) (n : Name) (isElement : Bool) : Name :=
  if n.space = xmlnsPrefix then ⟨xmlnsURL, n.loc⟩
  else if n.space = [] ∧ isElement = false then n
  else if n.space = xmlPrefix then
    match ns xmlURL with
    | some v => ⟨v, n.loc⟩
    | none => ⟨xmlURL, n.loc⟩
  else if n.space = [] ∧ n.loc = xmlnsPrefix then n
  else
    match ns n.space with
    | some v => ⟨v, n.loc⟩
    | none => n

/-- The loop over the attributes of a start element that records namespace declarations
(`/repo/xml/xml.go` 330-351). -/
def pushNs : List Attr → NsMap → List Stk → Except XErr (NsMap × List Stk)
  | [], ns, stk => .ok (ns, stk)
  | a :: l, ns, stk =>
    if a.name.space = xmlnsPrefix then
      if a.value = [] then .error (.syntaxError "empty namespace without prefix")
      else if a.name.loc = [] then .error (.syntaxError "empty prefix")
      else pushNs l (ns.set a.name.loc (some a.value)) (.ns a.name.loc (ns a.name.loc) :: stk)
    else if a.name.space = [] ∧ a.name.loc = xmlnsPrefix then
      pushNs l (ns.set [] (some a.value)) (.ns [] (ns []) :: stk)
    else pushNs l ns stk

/-- The undo loop of `popElement` (`/repo/xml/xml.go` 541-550). -/
def popNs : NsMap → List Stk → NsMap × List Stk
  | ns, .ns k old :: stk => popNs (ns.set k old) stk
  | ns, stk => (ns, stk)

/-- `popElement` in strict mode (`/repo/xml/xml.go` 515-553). -/
def popElement (ns : NsMap) (stk : List Stk) (n : Name) : Except XErr (Name × NsMap × List Stk) :=
  match stk with
  | .start m :: stk' =>
    if m.loc ≠ n.loc then .error (.syntaxError "element closed by another")
    else if m.space ≠ n.space then .error (.syntaxError "element closed by the same in another namespace")
    else .ok (translate ns n true, popNs ns stk')
  | _ => .error (.syntaxError "unexpected end element")

/-- `Token` (`/repo/xml/xml.go` 300-369) applied to a raw token. -/
def cook (t : Token) (ns : NsMap) (stk : List Stk) : Except XErr (Token × NsMap × List Stk) :=
  match t with
  | .startElement n attrs =>
    match pushNs attrs ns stk with
    | .error e => .error e
    | .ok (ns', stk') =>
      .ok (.startElement (translate ns' n true) (attrs.map fun a => ⟨translate ns' a.name false, a.value⟩),
        ns', .start n :: stk')
  | .endElement n =>
    match popElement ns stk n with
    | .error e => .error e
    | .ok (n', ns', stk') => .ok (.endElement n', ns', stk')
  | t => .ok (t, ns, stk)

/-- `Token` (`/repo/xml/xml.go` 300-369). -/
def token (d : Dec) : Except XErr (Token × Dec) :=
  match rawToken d.raw with
  | .error e => .error (if e = .eof ∧ d.stk ≠ [] then unexpectedEOF else e)
  | .ok (t, raw') =>
    match cook t d.ns d.stk with
    | .error e => .error e
    | .ok (t', ns', stk') => .ok (t', ⟨raw', ns', stk'⟩)

end Verif.Xml
