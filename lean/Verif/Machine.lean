import Verif.XmlToken

/-!
The decoder as a machine that reads one byte at a time, with the byte put back, line numbers, offsets and the copy of the
input kept for `,innerxml` (`/repo/xml/xml.go` 151-220, 942-1014).  `Verif.XmlToken` describes the tokens as functions of
the remaining input; here the same functions are written as in the Go code, as sequences of `getc`, `ungetc` and errors.

`d.buf` is a value passed along here.  Strict mode, no `CharsetReader`, no `TokenReader`, as in `Verif.XmlToken`.
Loops have fuel: one unit per iteration; it is an error to run out of it, which `Verif.MachineSim` shows not to happen.
-/
namespace Verif.Machine

open Verif.Xml Verif.Utf8

/-- An error of the decoder with the line of a `*SyntaxError` (`/repo/xml/xml.go` 24-33, 505-507). -/
inductive MErr where
  | eof
  | syntaxError (msg : String) (line : Int)
  | other (msg : String)
  deriving DecidableEq, Repr

/-- The reading part of `Decoder` (`/repo/xml/xml.go` 151-220): `inp` is what is left in `d.r`, `eof` tells whether
`d.err` is `io.EOF`. -/
structure D where
  inp : Bytes
  nextByte : Option UInt8
  line : Int
  linestart : Int
  offset : Int
  saved : Option Bytes
  eof : Bool
  deriving DecidableEq, Repr

/-- `NewDecoder` on an input (`/repo/xml/xml.go` 246-255). -/
def D.new (doc : Bytes) : D := ⟨doc, none, 1, 0, 0, none, false⟩

/-- Counting a byte in `getc` (`/repo/xml/xml.go` 962-966). -/
def D.count (d : D) (b : UInt8) : D :=
  { (if b = ch%'\n' then { d with line := d.line + 1, linestart := d.offset + 1 } else d) with offset := d.offset + 1 }

/-- `getc` (`/repo/xml/xml.go` 946-968). -/
def D.getc (d : D) : Option UInt8 × D :=
  if d.eof then (none, d)
  else
    match d.nextByte with
    | some b => (some b, { d with nextByte := none }.count b)
    | none =>
      match d.inp with
      | [] => (none, { d with eof := true })
      | b :: r => (some b, { d with inp := r, saved := d.saved.map (· ++ [b]) }.count b)

/-- `ungetc` (`/repo/xml/xml.go` 1008-1014). -/
def D.ungetc (d : D) (b : UInt8) : D :=
  { d with line := if b = ch%'\n' then d.line - 1 else d.line, nextByte := some b, offset := d.offset - 1 }

/-- `InputOffset` (`/repo/xml/xml.go` 973-975). -/
def D.inputOffset (d : D) : Int := d.offset

/-- `InputPos` (`/repo/xml/xml.go` 980-982). -/
def D.inputPos (d : D) : Int × Int := (d.line, d.offset - d.linestart + 1)

/-- `savedOffset` (`/repo/xml/xml.go` 986-992). -/
def D.savedOffset (d : D) : Int :=
  ((d.saved.getD []).length : Int) - (if d.nextByte.isSome then 1 else 0)

/-- `syntaxError` (`/repo/xml/xml.go` 505-507): the current line goes into a `*SyntaxError`. -/
def errAt (line : Int) : XErr → MErr
  | .eof => .eof
  | .syntaxError m => .syntaxError m line
  | .other m => .other m

/-- A piece of the decoder: it reads bytes, puts back the last one, ends with a value or with an error. -/
inductive Prog (α : Type) where
  | ret (a : α)
  | getc (k : Option UInt8 → Prog α)
  | ungetc (b : UInt8) (k : Prog α)
  | fail (e : XErr)

/-- One piece after another. -/
def Prog.bind {α β : Type} : Prog α → (α → Prog β) → Prog β
  | .ret a, f => f a
  | .getc k, f => .getc fun b => (k b).bind f
  | .ungetc b k, f => .ungetc b (k.bind f)
  | .fail e, _ => .fail e

/-- Running a piece of the decoder. -/
def Prog.run {α : Type} : Prog α → D → Except MErr α × D
  | .ret a, d => (.ok a, d)
  | .getc k, d => (k d.getc.1).run d.getc.2
  | .ungetc b k, d => k.run (d.ungetc b)
  | .fail e, d => (.error (errAt d.line e), d)

/-- `mustgetc` (`/repo/xml/xml.go` 998-1005). -/
def must {α : Type} (k : UInt8 → Prog α) : Prog α :=
  .getc fun
    | none => .fail unexpectedEOF
    | some b => k b

/-- `space` (`/repo/xml/xml.go` 926-940). -/
def spaceP : Nat → Prog Unit
  | 0 => .fail unexpectedEOF
  | n + 1 => .getc fun
    | none => .ret ()
    | some b => if isSpace b then spaceP n else .ungetc b (.ret ())

/-- The loop of `readName` (`/repo/xml/xml.go` 1266-1275). -/
def nameLoopP : Nat → Bytes → Prog Bytes
  | 0, _ => .fail unexpectedEOF
  | n + 1, buf => must fun b =>
    if nameOrHigh b then nameLoopP n (buf ++ [b]) else .ungetc b (.ret buf)

/-- `readName` (`/repo/xml/xml.go` 1255-1277): `none` when it returns false without an error. -/
def readNameP (n : Nat) : Prog (Option Bytes) := must fun b =>
  if nameOrHigh b then (nameLoopP n [b]).bind fun nm => .ret (some nm) else .ungetc b (.ret none)

/-- `name` (`/repo/xml/xml.go` 1237-1250). -/
def nameP (n : Nat) : Prog (Option Bytes) := (readNameP n).bind fun
  | none => .ret none
  | some nm => if isName nm then .ret (some nm) else .fail (.syntaxError "invalid XML name: ")

/-- `nsname` (`/repo/xml/xml.go` 1213-1232). -/
def nsnameP (n : Nat) : Prog (Option Name) := (nameP n).bind fun
  | none => .ret none
  | some nm => .ret (splitName nm)

/-- A numeric reference, from the byte `b` already read on (`/repo/xml/xml.go` 1102-1119, 1158-1163); `buf` are the digits so
far. -/
def numRefP (hex : Bool) : Nat → Bytes → UInt8 → Prog Bytes
  | 0, _, _ => .fail unexpectedEOF
  | n + 1, buf, b =>
    if isRefDigit hex b then must fun c => numRefP hex n (buf ++ [b]) c
    else if b ≠ ch%';' then .ungetc b (.fail badEntity)
    else if buf ≠ [] ∧ refVal hex buf ≤ 0x10FFFF then .ret (encodeRune (refVal hex buf))
    else .fail badEntity

/-- A named reference (`/repo/xml/xml.go` 1122-1145, 1158-1163). -/
def nameRefP (n : Nat) : Prog Bytes := (readNameP n).bind fun nm => must fun b =>
  if b ≠ ch%';' then .ungetc b (.fail badEntity)
  else if isName (nm.getD []) then
    match entity (nm.getD []) with
    | some c => .ret (encodeRune c)
    | none => .fail badEntity
  else .fail badEntity

/-- A reference after its `&` (`/repo/xml/xml.go` 1074-1164). -/
def entityRefP (n : Nat) : Prog Bytes := must fun b =>
  if b = ch%'#' then
    must fun c => if c = ch%'x' then must fun d => numRefP true n [] d else numRefP false n [] c
  else .ungetc b (nameRefP n)

/-- The loop of `text` (`/repo/xml/xml.go` 1029-1177), as `Xml.textLoop`. -/
def textLoopP : Nat → Option UInt8 → Bool → UInt8 → UInt8 → Bytes → Prog Bytes
  | 0, _, _, _, _, _ => .fail unexpectedEOF
  | n + 1, q, cd, b0, b1, buf => .getc fun
    | none => if cd then .fail (.syntaxError "unexpected EOF in CDATA section") else .ret buf
    | some b =>
      if q = none ∧ b0 = ch%']' ∧ b1 = ch%']' ∧ b = ch%'>' then
        (if cd then .ret (buf.take (buf.length - 2))
         else .fail (.syntaxError "unescaped ]]> not in CDATA section"))
      else if b = ch%'<' ∧ cd = false then
        (if q ≠ none then .fail (.syntaxError "unescaped < inside quoted string") else .ungetc ch%'<' (.ret buf))
      else if b = ch%'>' ∧ cd = false ∧ q = none then .ungetc ch%'>' (.ret buf)
      else if q = some b then .ret buf
      else if b = ch%'&' ∧ cd = false then
        (entityRefP n).bind fun t => textLoopP n q cd 0 0 (buf ++ t)
      else textLoopP n q cd b1 b (buf ++ putByte b1 b)

/-- `text` (`/repo/xml/xml.go` 1024-1197). -/
def textP (n : Nat) (q : Option UInt8) (cd : Bool) : Prog Bytes := (textLoopP n q cd 0 0 []).bind fun data =>
  match checkChars (runes data) with
  | some e => .fail e
  | none => .ret data

/-- `attrval` (`/repo/xml/xml.go` 892-905). -/
def attrvalP (n : Nat) : Prog Bytes := must fun b =>
  if b = ch%'"' ∨ b = ch%'\'' then textP n (some b) false
  else .fail (.syntaxError "unquoted or missing attribute value in element")

/-- One attribute (`/repo/xml/xml.go` 858-881). -/
def attrP (n : Nat) : Prog Attr := (nsnameP n).bind fun
  | none => .fail (.syntaxError "expected attribute name in element")
  | some nm => (spaceP n).bind fun _ => must fun b =>
    if b ≠ ch%'=' then .fail (.syntaxError "attribute name without = in element")
    else (spaceP n).bind fun _ => (attrvalP n).bind fun v => .ret ⟨nm, v⟩

/-- The attribute loop (`/repo/xml/xml.go` 834-883). -/
def attrsP : Nat → List Attr → Prog (List Attr × Bool)
  | 0, _ => .fail unexpectedEOF
  | n + 1, acc => (spaceP (n + 1)).bind fun _ => must fun b =>
    if b = ch%'/' then
      must fun c => if c ≠ ch%'>' then .fail (.syntaxError "expected /> in element") else .ret (acc, true)
    else if b = ch%'>' then .ret (acc, false)
    else .ungetc b ((attrP (n + 1)).bind fun a => attrsP n (acc ++ [a]))

/-- The body of a processing instruction (`/repo/xml/xml.go` 652-664). -/
def piP : Nat → UInt8 → Bytes → Prog Bytes
  | 0, _, _ => .fail unexpectedEOF
  | n + 1, b0, buf => must fun b =>
    if b0 = ch%'?' ∧ b = ch%'>' then .ret ((buf ++ [b]).take ((buf ++ [b]).length - 2))
    else piP n b (buf ++ [b])

/-- A comment (`/repo/xml/xml.go` 709-727). -/
def commentP : Nat → UInt8 → UInt8 → Bytes → Prog Bytes
  | 0, _, _, _ => .fail unexpectedEOF
  | n + 1, b0, b1, buf => must fun b =>
    if b0 = ch%'-' ∧ b1 = ch%'-' then
      if b ≠ ch%'>' then .fail (.syntaxError "invalid sequence \"--\" not allowed in comments")
      else .ret ((buf ++ [b]).take ((buf ++ [b]).length - 3))
    else commentP n b1 b (buf ++ [b])

/-- The end of a comment inside a directive (`/repo/xml/xml.go` 797-806). -/
def skipCommentP : Nat → UInt8 → UInt8 → Prog Unit
  | 0, _, _ => .fail unexpectedEOF
  | n + 1, b0, b1 => must fun b =>
    if b0 = ch%'-' ∧ b1 = ch%'-' ∧ b = ch%'>' then .ret () else skipCommentP n b1 b

/-- Looks for `!--` after a `<` in a directive (`/repo/xml/xml.go` 779-791): `none` if found, else what was found of it and the
byte that differs, with which the code goes to `HandleB`. -/
def dirLtP : Prog (Option (Bytes × UInt8)) := must fun a =>
  if a ≠ ch%'!' then .ret (some ([], a))
  else must fun b =>
    if b ≠ ch%'-' then .ret (some (b!"!", b))
    else must fun c => if c ≠ ch%'-' then .ret (some (b!"!-", c)) else .ret none

/-- The directive loop (`/repo/xml/xml.go` 755-814).  With `some b` it begins at the label `HandleB` with that byte, which
was read before; otherwise it reads one. -/
def dirP : Nat → Option UInt8 → UInt8 → Int → Bytes → Prog Bytes
  | 0, _, _, _, _ => .fail unexpectedEOF
  | n + 1, h, inq, depth, buf =>
    let handle (b : UInt8) : Prog Bytes :=
      if b = inq then dirP n none 0 depth (buf ++ [b])
      else if inq ≠ 0 then dirP n none inq depth (buf ++ [b])
      else if b = ch%'\'' ∨ b = ch%'"' then dirP n none b depth (buf ++ [b])
      else if b = ch%'>' then dirP n none inq (depth - 1) (buf ++ [b])
      else if b = ch%'<' then
        dirLtP.bind fun
          | some (w, c) => dirP n (some c) inq (depth + 1) (buf ++ [b] ++ w)
          | none => (skipCommentP n 0 0).bind fun _ => dirP n none inq depth (buf ++ [ch%' '])
      else dirP n none inq depth (buf ++ [b])
    match h with
    | some b => handle b
    | none => must fun b => if inq = 0 ∧ b = ch%'>' ∧ depth = 0 then .ret buf else handle b

/-- Checks `CDATA[` (`/repo/xml/xml.go` 731-739). -/
def cdataOpenP : Bytes → Prog Unit
  | [] => .ret ()
  | c :: p => must fun b => if b ≠ c then .fail (.syntaxError "invalid <![ sequence") else cdataOpenP p

/-- `</name>` (`/repo/xml/xml.go` 622-639). -/
def endTagP (n : Nat) : Prog (Token × Option Name) := (nsnameP n).bind fun
  | none => .fail (.syntaxError "expected element name after </")
  | some nm => (spaceP n).bind fun _ => must fun b =>
    if b ≠ ch%'>' then .fail (.syntaxError "invalid characters between </ and >") else .ret (.endElement nm, none)

/-- `<?target data?>` (`/repo/xml/xml.go` 641-690). -/
def piTagP (n : Nat) : Prog (Token × Option Name) := (nameP n).bind fun
  | none => .fail (.syntaxError "expected target name after <?")
  | some target => (spaceP n).bind fun _ => (piP n 0 []).bind fun data =>
    match checkXmlDecl target data with
    | some e => .fail e
    | none => .ret (.procInst target data, none)

/-- `<!...` (`/repo/xml/xml.go` 692-815). -/
def bangTagP (n : Nat) : Prog (Token × Option Name) := must fun b =>
  if b = ch%'-' then
    must fun c =>
      if c ≠ ch%'-' then .fail (.syntaxError "invalid sequence <!- not part of <!--")
      else (commentP n 0 0 []).bind fun d => .ret (.comment d, none)
  else if b = ch%'[' then
    (cdataOpenP b!"CDATA[").bind fun _ => (textP n none true).bind fun d => .ret (.charData d, none)
  else (dirP n none 0 0 [b]).bind fun d => .ret (.directive d, none)

/-- `<name attrs>` or `<name attrs/>` (`/repo/xml/xml.go` 821-889). -/
def startTagP (n : Nat) : Prog (Token × Option Name) := (nsnameP n).bind fun
  | none => .fail (.syntaxError "expected element name after <")
  | some nm => (attrsP n []).bind fun x => .ret (.startElement nm x.1, if x.2 then some nm else none)

/-- `rawToken` (`/repo/xml/xml.go` 588-889): the token and the name of the end element still to be returned. -/
def rawTokenP (n : Nat) (toClose : Option Name) : Prog (Token × Option Name) :=
  match toClose with
  | some nm => .ret (.endElement nm, none)
  | none => .getc fun
    | none => .fail .eof
    | some b =>
      if b ≠ ch%'<' then .ungetc b ((textP n none false).bind fun d => .ret (.charData d, none))
      else must fun c =>
        if c = ch%'/' then endTagP n
        else if c = ch%'?' then piTagP n
        else if c = ch%'!' then bangTagP n
        else .ungetc c (startTagP n)

/-- A `Decoder`. -/
structure M where
  d : D
  toClose : Option Name
  ns : NsMap
  stk : List Stk

/-- `NewDecoder` (`/repo/xml/xml.go` 246-255). -/
def M.new (doc : Bytes) : M := ⟨.new doc, none, fun _ => none, []⟩

/-- `Token` (`/repo/xml/xml.go` 300-369). -/
def M.token (n : Nat) (m : M) : Except MErr Token × M :=
  match (rawTokenP n m.toClose).run m.d with
  | (.error e, d) =>
    (.error (if e = .eof ∧ m.stk ≠ [] then errAt d.line unexpectedEOF else e), { m with d := d })
  | (.ok (t, c), d) =>
    match cook t m.ns m.stk with
    | .error e => (.error (errAt d.line e), { m with d := d, toClose := c })
    | .ok (t', ns, stk) => (.ok t', ⟨d, c, ns, stk⟩)

end Verif.Machine
