import Verif.XmlNsProps
import Verif.XmlTextProps

/-!
Well-formed documents, as a specification: the productions of XML 1.0 and Namespaces in XML 1.0 for documents in UTF-8
without an internal subset in the document type declaration.  A value of these types is a document as it is spelled; `src` is its text, `Ok` says that
it is well formed, and `info` is its information content, in which the spelling does not appear any more.

Nothing in this file refers to the functions of the decoder, except that names are those of `isName` (the tables of
XML 1.0, fourth edition, are part of the program).
-/
namespace Verif.Grammar

open Verif.Xml Verif.Utf8

/-- White space (production 3). -/
def IsS (b : Bytes) : Prop := ∀ x ∈ b, x = ch%' ' ∨ x = ch%'\t' ∨ x = ch%'\n' ∨ x = ch%'\r'

/-- Line ends (section 2.11): `\r\n` and `\r` are read as `\n`. -/
def eol : Bytes → Bytes
  | [] => []
  | [b] => [if b = ch%'\r' then ch%'\n' else b]
  | b :: c :: r =>
    if b = ch%'\r' then (if c = ch%'\n' then ch%'\n' :: eol r else ch%'\n' :: eol (c :: r))
    else b :: eol (c :: r)

/-- White space in an attribute value (section 3.3.3). -/
def spaces (b : Bytes) : Bytes := b.map fun x => if x = ch%'\t' ∨ x = ch%'\n' then ch%' ' else x

/-! ### References and text -/

/-- References (productions 66-68): numbers and the five predefined entities. -/
inductive Ref where
  | dec (digits : Bytes)
  | hex (digits : Bytes)
  | lt | gt | amp | apos | quot
  deriving DecidableEq, Repr

/-- The text of a reference. -/
def Ref.src : Ref → Bytes
  | .dec ds => b!"&#" ++ ds ++ b!";"
  | .hex ds => b!"&#x" ++ ds ++ b!";"
  | .lt => b!"&lt;"
  | .gt => b!"&gt;"
  | .amp => b!"&amp;"
  | .apos => b!"&apos;"
  | .quot => b!"&quot;"

/-- The value of a hexadecimal digit. -/
def hexVal (b : UInt8) : Nat :=
  if ch%'a' ≤ b then b.toNat - 97 + 10 else if ch%'A' ≤ b then b.toNat - 65 + 10 else b.toNat - 48

/-- The character that a reference stands for. -/
def Ref.code : Ref → Nat
  | .dec ds => ds.foldl (fun a d => 10 * a + (d.toNat - 48)) 0
  | .hex ds => ds.foldl (fun a d => 16 * a + hexVal d) 0
  | .lt => 60
  | .gt => 62
  | .amp => 38
  | .apos => 39
  | .quot => 34

/-- A decimal digit. -/
def IsDigit (b : UInt8) : Prop := ch%'0' ≤ b ∧ b ≤ ch%'9'

/-- A hexadecimal digit. -/
def IsHex (b : UInt8) : Prop := IsDigit b ∨ (ch%'a' ≤ b ∧ b ≤ ch%'f') ∨ (ch%'A' ≤ b ∧ b ≤ ch%'F')

/-- A reference is well formed: it has digits, and it stands for a character of XML. -/
def Ref.Ok : Ref → Prop
  | .dec ds => ds ≠ [] ∧ (∀ b ∈ ds, IsDigit b) ∧ IsXmlChar (Ref.dec ds).code
  | .hex ds => ds ≠ [] ∧ (∀ b ∈ ds, IsHex b) ∧ IsXmlChar (Ref.hex ds).code
  | _ => True

/-- Literal text and references, in turn. -/
structure Txt where
  first : Bytes
  more : List (Ref × Bytes)
  deriving DecidableEq, Repr

/-- The spelling of a text. -/
def Txt.src (t : Txt) : Bytes := t.first ++ t.more.flatMap fun p => p.1.src ++ p.2

/-- The literal parts of a text. -/
def Txt.lits (t : Txt) : List Bytes := t.first :: t.more.map (·.2)

/-- What a text stands for, if a literal part stands for `f` of it. -/
def Txt.value (f : Bytes → Bytes) (t : Txt) : Bytes := f t.first ++ t.more.flatMap fun p => encodeRune p.1.code ++ f p.2

/-- Text in the content of an element (production 14). -/
def Txt.InContent (t : Txt) : Prop :=
  t.src ≠ [] ∧ (∀ l ∈ t.lits, IsXmlText l ∧ (∀ b ∈ l, b ≠ ch%'<' ∧ b ≠ ch%'&') ∧ ¬ (b!"]]>") <:+: l) ∧ ∀ p ∈ t.more, p.1.Ok

/-- Text in an attribute value between the quotes `q` (production 10). -/
def Txt.InQuotes (q : UInt8) (t : Txt) : Prop :=
  (∀ l ∈ t.lits, IsXmlText l ∧ ∀ b ∈ l, b ≠ ch%'<' ∧ b ≠ ch%'&' ∧ b ≠ q) ∧ ∀ p ∈ t.more, p.1.Ok

/-! ### Names and attributes -/

/-- A name without a colon. -/
def IsNCName (s : Bytes) : Prop := isName s = true ∧ ch%':' ∉ s

/-- A qualified name. -/
def IsQName (n : Name) : Prop := (n.space = [] ∨ IsNCName n.space) ∧ IsNCName n.loc

/-- The spelling of a qualified name. -/
def qname (n : Name) : Bytes := if n.space = [] then n.loc else n.space ++ ch%':' :: n.loc

/-- An attribute (production 41), with the white space before it and around its equals sign. -/
structure Att where
  gap : Bytes
  name : Name
  eq1 : Bytes
  eq2 : Bytes
  quote : UInt8
  val : Txt
  deriving DecidableEq, Repr

/-- The spelling of an attribute. -/
def Att.src (a : Att) : Bytes :=
  a.gap ++ (qname a.name ++ (a.eq1 ++ ch%'=' :: (a.eq2 ++ a.quote :: (a.val.src ++ [a.quote]))))

/-- What an attribute stands for. -/
def Att.attr (a : Att) : Attr := ⟨a.name, a.val.value fun l => spaces (eol l)⟩

/-- An attribute is well formed; a prefix is not declared empty (Namespaces, section 2.2). -/
def Att.Ok (a : Att) : Prop :=
  a.gap ≠ [] ∧ IsS a.gap ∧ IsQName a.name ∧ IsS a.eq1 ∧ IsS a.eq2 ∧ (a.quote = ch%'"' ∨ a.quote = ch%'\'') ∧
    a.val.InQuotes a.quote ∧ (a.name.space = b!"xmlns" → a.attr.value ≠ [])

/-! ### Elements -/

/-- Content of elements (production 43): an element with white space at the end of its tags, written with an empty-element tag
or not; text; a CDATA section; a comment; a processing instruction with white space after its target. -/
inductive Node where
  | elem (name : Name) (attrs : List Att) (gap : Bytes) (empty : Bool) (kids : List Node) (gap' : Bytes)
  | text (t : Txt)
  | cdata (b : Bytes)
  | comment (b : Bytes)
  | pi (target gap data : Bytes)
  deriving Repr

mutual
/-- The spelling of content. -/
def Node.src : Node → Bytes
  | .elem n as gap empty kids gap' =>
    ch%'<' :: (qname n ++ (as.flatMap Att.src ++ (gap ++
      (if empty then b!"/>" else ch%'>' :: (srcs kids ++ (b!"</" ++ (qname n ++ (gap' ++ b!">"))))))))
  | .text t => t.src
  | .cdata b => b!"<![CDATA[" ++ (b ++ b!"]]>")
  | .comment b => b!"<!--" ++ (b ++ b!"-->")
  | .pi t gap d => b!"<?" ++ (t ++ (gap ++ (d ++ b!"?>")))
/-- The spelling of a list. -/
def srcs : List Node → Bytes
  | [] => []
  | x :: l => x.src ++ srcs l
end

/-- Text. -/
def Node.isText : Node → Bool
  | .text _ => true
  | _ => false

/-- No two texts are next to each other: they would be one. -/
def Apart : List Node → Prop
  | [] => True
  | [_] => True
  | x :: y :: l => ¬ (x.isText = true ∧ y.isText = true) ∧ Apart (y :: l)

mutual
/-- Content is well formed. -/
def Node.Ok : Node → Prop
  | .elem n as gap empty kids gap' =>
    IsQName n ∧ (∀ a ∈ as, a.Ok) ∧ IsS gap ∧ IsS gap' ∧ (empty = true → kids = []) ∧ Apart kids ∧ Oks kids
  | .text t => t.InContent
  | .cdata b => IsXmlText b ∧ ¬ (b!"]]>") <:+: b
  | .comment b => ¬ (b!"--") <:+: b ∧ ¬ (b!"-") <:+ b
  | .pi t gap d => isName t = true ∧ t ≠ b!"xml" ∧ IsS gap ∧ (gap = [] → d = []) ∧ ¬ (b!"?>") <:+: d ∧
    ∀ b d', d = b :: d' → ¬ IsS [b]
/-- A list is well formed. -/
def Oks : List Node → Prop
  | [] => True
  | x :: l => x.Ok ∧ Oks l
end

/-! ### Information content -/

/-- What a document says: elements with names and attributes, and text. -/
inductive Info where
  | elem (name : Name) (attrs : List Attr) (kids : List Info)
  | chars (b : Bytes)
  deriving Repr

/-- Puts text before content; neighbouring texts are one, and there is no empty text. -/
def addChars (b : Bytes) (l : List Info) : List Info :=
  if b = [] then l
  else
    match l with
    | .chars c :: l' => .chars (b ++ c) :: l'
    | l => .chars b :: l

mutual
/-- Puts what a piece of content says before other content: CDATA sections are text, comments and processing instructions say
nothing. -/
def Node.info : Node → List Info → List Info
  | .elem n as _ _ kids _, l => .elem n (as.map Att.attr) (infos kids) :: l
  | .text t, l => addChars (t.value eol) l
  | .cdata b, l => addChars (eol b) l
  | .comment _, l => l
  | .pi _ _ _, l => l
/-- What content says. -/
def infos : List Node → List Info
  | [] => []
  | x :: l => x.info (infos l)
end

mutual
/-- Namespaces (C27): names are resolved inside the open elements `os`. -/
def Info.resolve (os : List Open) : Info → Info
  | .elem n as kids =>
    .elem (resolveElement (⟨n, as.filterMap declOf⟩ :: os) n)
      (as.map fun a => ⟨resolveAttr (⟨n, as.filterMap declOf⟩ :: os) a.name, a.value⟩) (resolves (⟨n, as.filterMap declOf⟩ :: os) kids)
  | .chars b => .chars b
/-- The same for a list. -/
def resolves (os : List Open) : List Info → List Info
  | [] => []
  | x :: l => x.resolve os :: resolves os l
end

/-! ### Documents -/

/-- Single or double quotes. -/
def quoteOf (b : Bool) : Bytes := if b then b!"'" else b!"\""

/-- A part of the XML declaration (productions 24, 32 and 80): the white space before it, before and after the equals sign
(production 25), and the quotes. -/
structure Part where
  gap : Bytes
  eq1 : Bytes
  eq2 : Bytes
  quote : Bool
  deriving DecidableEq, Repr

/-- The spelling of a part after its white space. -/
def Part.body (p : Part) (name value : Bytes) : Bytes :=
  name ++ (p.eq1 ++ ch%'=' :: (p.eq2 ++ (quoteOf p.quote ++ (value ++ quoteOf p.quote))))

/-- A part is well formed. -/
def Part.Ok (p : Part) : Prop := p.gap ≠ [] ∧ IsS p.gap ∧ IsS p.eq1 ∧ IsS p.eq2

/-- The XML declaration (production 23) for version 1.0 and UTF-8: the encoding and how its letters are written, whether the
document is standalone, and the white space at the end. -/
structure Decl where
  version : Part
  encoding : Option (Part × Bool × Bool × Bool)
  standalone : Option (Part × Bool)
  gap : Bytes
  deriving DecidableEq, Repr

/-- The name of the encoding. -/
def utfName (u t f : Bool) : Bytes :=
  [if u then ch%'U' else ch%'u', if t then ch%'T' else ch%'t', if f then ch%'F' else ch%'f', ch%'-', ch%'8']

/-- What comes after the version. -/
def Decl.tail (d : Decl) : Bytes :=
  (match d.encoding with
    | none => []
    | some (p, u, t, f) => p.gap ++ p.body (b!"encoding") (utfName u t f)) ++
  ((match d.standalone with
    | none => []
    | some (p, y) => p.gap ++ p.body (b!"standalone") (if y then b!"yes" else b!"no")) ++ d.gap)

/-- What is between the white space after `<?xml` and `?>`. -/
def Decl.data (d : Decl) : Bytes := d.version.body (b!"version") (b!"1.0") ++ d.tail

/-- The spelling of the declaration. -/
def Decl.src (d : Decl) : Bytes := b!"<?xml" ++ (d.version.gap ++ (d.data ++ b!"?>"))

/-- The declaration is well formed. -/
structure Decl.Ok (d : Decl) : Prop where
  version : d.version.Ok
  encoding : ∀ x ∈ d.encoding, x.1.Ok
  standalone : ∀ x ∈ d.standalone, x.1.Ok
  gap : IsS d.gap

/-- A literal between quotes (productions 11 and 12; the characters of public identifiers are not restricted further). -/
structure Literal where
  quote : Bool
  text : Bytes
  deriving DecidableEq, Repr

/-- The spelling of a literal. -/
def Literal.src (l : Literal) : Bytes := quoteOf l.quote ++ (l.text ++ quoteOf l.quote)

/-- A literal is well formed. -/
def Literal.Ok (l : Literal) : Prop := IsXmlText l.text ∧ ∀ b ∈ l.text, b ∉ quoteOf l.quote

/-- The markup declarations (productions 45, 52, 70 and 82). -/
inductive DeclKind where
  | element | attlist | entity | notat
  deriving DecidableEq, Repr

/-- Their names. -/
def DeclKind.src : DeclKind → Bytes
  | .element => b!"ELEMENT"
  | .attlist => b!"ATTLIST"
  | .entity => b!"ENTITY"
  | .notat => b!"NOTATION"

/-- A piece of a markup declaration: a literal, or characters that are not in a literal.  The productions of the declarations have
angle brackets and quotes in literals only; apart from that what is in a declaration is not restricted here. -/
inductive Piece where
  | bare (s : Bytes)
  | lit (l : Literal)
  deriving DecidableEq, Repr

/-- A character other than quotes and angle brackets. -/
def Bare (b : UInt8) : Prop := b ≠ ch%'\'' ∧ b ≠ ch%'"' ∧ b ≠ ch%'<' ∧ b ≠ ch%'>'

/-- The spelling of a piece. -/
def Piece.src : Piece → Bytes
  | .bare s => s
  | .lit l => l.src

/-- A piece is well formed. -/
def Piece.Ok : Piece → Prop
  | .bare s => IsXmlText s ∧ ∀ b ∈ s, Bare b
  | .lit l => l.Ok

/-- What is in an internal subset (productions 28a, 28b and 29): white space, references to parameter entities (production 69), declarations,
comments and processing instructions. -/
inductive SubItem where
  | space (s : Bytes)
  | peRef (n : Bytes)
  | decl (k : DeclKind) (gap : Bytes) (ps : List Piece)
  | comment (b : Bytes)
  | pi (target gap data : Bytes)
  deriving DecidableEq, Repr

/-- The spelling of these. -/
def SubItem.src : SubItem → Bytes
  | .space s => s
  | .peRef n => b!"%" ++ (n ++ b!";")
  | .decl k gap ps => b!"<!" ++ (k.src ++ (gap ++ (ps.flatMap Piece.src ++ b!">")))
  | .comment b => (Node.comment b).src
  | .pi t g d => (Node.pi t g d).src

/-- They are well formed. -/
def SubItem.Ok : SubItem → Prop
  | .space s => IsS s
  | .peRef n => IsNCName n
  | .decl _ gap ps => (gap ≠ [] ∧ IsS gap) ∧ ∀ p ∈ ps, p.Ok
  | .comment b => (Node.comment b).Ok
  | .pi t g d => (Node.pi t g d).Ok

/-- Processing instructions without quotes and angle brackets; the decoder takes these for quotes and brackets of declarations. -/
def SubItem.Plain : SubItem → Prop
  | .pi _ _ d => ∀ b ∈ d, Bare b
  | _ => True

/-- Not a declaration of attributes, which may give attributes to elements and change the values of those that are there, and not a reference to a
parameter entity, which may stand for one. -/
def SubItem.Inert : SubItem → Prop
  | .decl .attlist _ _ => False
  | .peRef _ => False
  | _ => True

/-- The document type declaration (production 28): white space, the name, white space and the identifier of the external subset (production 75), the
public identifier with white space before and after it; then white space, and the internal subset with white space after it. -/
structure Doctype where
  gap : Bytes
  name : Name
  ext : Option (Bytes × Option (Bytes × Literal) × Bytes × Literal)
  last : Bytes
  subset : Option (List SubItem × Bytes)
  deriving DecidableEq, Repr

/-- The internal subset. -/
def Doctype.inner (d : Doctype) : Bytes :=
  match d.subset with
  | none => []
  | some (l, g) => b!"[" ++ (l.flatMap SubItem.src ++ (b!"]" ++ g))

/-- What comes after the name. -/
def Doctype.tail (d : Doctype) : Bytes :=
  (match d.ext with
    | none => []
    | some (g, none, g', l) => g ++ (b!"SYSTEM" ++ (g' ++ l.src))
    | some (g, some (h, p), g', l) => g ++ (b!"PUBLIC" ++ (h ++ (p.src ++ (g' ++ l.src))))) ++ (d.last ++ d.inner)

/-- The spelling of the declaration. -/
def Doctype.src (d : Doctype) : Bytes := b!"<!DOCTYPE" ++ (d.gap ++ (qname d.name ++ (d.tail ++ b!">")))

/-- The declaration is well formed. -/
structure Doctype.Ok (d : Doctype) : Prop where
  gap : d.gap ≠ [] ∧ IsS d.gap
  name : IsQName d.name
  ext : ∀ x ∈ d.ext, (x.1 ≠ [] ∧ IsS x.1) ∧ (∀ y ∈ x.2.1, (y.1 ≠ [] ∧ IsS y.1) ∧ y.2.Ok) ∧ (x.2.2.1 ≠ [] ∧ IsS x.2.2.1) ∧ x.2.2.2.Ok
  last : IsS d.last
  subset : ∀ x ∈ d.subset, (∀ y ∈ x.1, y.Ok) ∧ IsS x.2

/-- What may be before and after the root element (production 27): comments, processing instructions, white space. -/
def Misc : Node → Prop
  | .text t => t.more = [] ∧ IsS t.first
  | .comment _ => True
  | .pi _ _ _ => True
  | _ => False

/-- A document (production 1), with a byte order mark (section 4.3.3) or not. -/
structure Doc where
  bom : Bool := false
  decl : Option Decl := none
  before : List Node := []
  doctype : Option (Doctype × List Node) := none
  root : Node
  after : List Node := []
  deriving Repr

/-- The byte order mark in UTF-8. -/
def byteOrderMark : Bytes := [0xEF, 0xBB, 0xBF]

/-- The text of the declaration, if there is one. -/
def declSrc : Option Decl → Bytes
  | none => []
  | some x => x.src

/-- The text of the document type declaration and what is after it, if there is one. -/
def doctypeSrc : Option (Doctype × List Node) → Bytes
  | none => []
  | some (x, l) => x.src ++ srcs l

/-- The text of a document. -/
def Doc.src (d : Doc) : Bytes :=
  (if d.bom then byteOrderMark else []) ++ (declSrc d.decl ++ (srcs d.before ++ (doctypeSrc d.doctype ++ (d.root.src ++ srcs d.after))))

/-- An element. -/
def Node.isElem : Node → Bool
  | .elem .. => true
  | _ => false

/-- A document is well formed. -/
structure Doc.Ok (d : Doc) : Prop where
  decl : ∀ x ∈ d.decl, x.Ok
  before : Grammar.Oks d.before ∧ Apart d.before ∧ ∀ x ∈ d.before, Misc x
  doctype : ∀ x ∈ d.doctype, x.1.Ok ∧ Grammar.Oks x.2 ∧ Apart x.2 ∧ ∀ y ∈ x.2, Misc y
  root : d.root.Ok ∧ d.root.isElem = true
  after : Grammar.Oks d.after ∧ Apart d.after ∧ ∀ x ∈ d.after, Misc x

/-! ### What the decoder does otherwise -/

mutual
/-- Text without a literal `>`, and attribute values without literal white space other than spaces. -/
def Node.Usual : Node → Prop
  | .elem _ as _ _ kids _ =>
    (∀ a ∈ as, ∀ l ∈ a.val.lits, ∀ b ∈ l, b ≠ ch%'\t' ∧ b ≠ ch%'\n' ∧ b ≠ ch%'\r') ∧ Usuals kids
  | .text t => ∀ l ∈ t.lits, ch%'>' ∉ l
  | _ => True
/-- The same for a list. -/
def Usuals : List Node → Prop
  | [] => True
  | x :: l => x.Usual ∧ Usuals l
end

/-- The document type declaration has no processing instructions that the decoder does not take for such. -/
def Doc.Plain (d : Doc) : Prop := ∀ x ∈ d.doctype, ∀ y ∈ x.1.subset, ∀ z ∈ y.1, z.Plain

/-- A document that the decoder reads as XML says: text and attribute values are as above, and there is nothing in the internal subset that the
decoder misunderstands or that has a meaning for it to ignore.  (Entities declared there may not be used: `Txt` has none.) -/
structure Doc.Usual (d : Doc) : Prop where
  root : d.root.Usual
  plain : d.Plain
  inert : ∀ x ∈ d.doctype, ∀ y ∈ x.1.subset, ∀ z ∈ y.1, z.Inert

end Verif.Grammar
