import Verif.XmlToken
import Verif.Strconv

/-!
The printer of the `xml` package (`/repo/xml/marshal.go` 368-500, 814-949, 1213-1242): element stack, namespace prefixes,
start and end tags, indentation.  The printer writes to a destination that accepts everything; failing destinations are
the subject of `Verif/WriteIO.lean`.  Tags are produced in two steps, a list of `Out` pieces and their bytes, where the Go
code writes the bytes one call at a time.
-/
namespace Verif.Xml

open Verif.Utf8

/-- `m[k]` of a Go `map[string]string`: the empty string for a missing key. -/
def mget (m : List (Bytes × Bytes)) (k : Bytes) : Bytes := (m.lookup k).getD []

/-- `element` (`/repo/xml/marshal.go` 368-374). -/
structure Elem where
  xmlns : Bytes
  pre : Bytes
  name : Bytes
  nsToPrefix : List (Bytes × Bytes)
  prefixToNS : List (Bytes × Bytes)
  deriving DecidableEq, Repr

/-- `splitPrefixed` (`/repo/xml/marshal.go` 383-389). -/
def splitPrefixed (s : Bytes) : Bytes × Bytes :=
  match s.dropWhile (· != ch%':') with
  | [] => ([], s)
  | _ :: loc =>
    if s.takeWhile (· != ch%':') = [] ∨ loc = [] then ([], s) else (s.takeWhile (· != ch%':'), loc)

/-- `joinPrefixed` (`/repo/xml/marshal.go` 391-396). -/
def joinPrefixed (pre name : Bytes) : Bytes := if pre = [] then name else pre ++ ch%':' :: name

/-- `newElement` (`/repo/xml/marshal.go` 376-381). -/
def newElement (n : Name) : Elem := ⟨n.space, (splitPrefixed n.loc).1, (splitPrefixed n.loc).2, [], []⟩

/-- The namespace part of `printer` (`/repo/xml/marshal.go` 398-410): `seq` (a Go `int`, here unbounded) and `elements`,
innermost first. -/
structure Ns where
  seq : Nat
  els : List Elem
  deriving DecidableEq, Repr

/-- The loop of `getPrefix` over the element stack (`/repo/xml/marshal.go` 424-435); `deeper` are the elements already
passed. -/
def getPrefixLoop (uri : Bytes) : List Elem → List Elem → Bytes
  | _, [] => []
  | deeper, e :: els =>
    if mget e.nsToPrefix uri ≠ [] then
      if deeper.any (fun d => mget d.prefixToNS (mget e.nsToPrefix uri) != []) then [] else mget e.nsToPrefix uri
    else getPrefixLoop uri (e :: deeper) els

/-- `getPrefix` (`/repo/xml/marshal.go` 413-437). -/
def getPrefix (els : List Elem) (uri : Bytes) : Bytes :=
  if uri = xmlURL then xmlPrefix
  else if uri = xmlnsURL then xmlnsPrefix
  else getPrefixLoop uri [] els

/-- `strings.TrimRight(s, "/")`. -/
def trimSlashes (s : Bytes) : Bytes := (s.reverse.dropWhile (· == ch%'/')).reverse

/-- The part after the last slash (`/repo/xml/marshal.go` 463-465). -/
def afterSlash (s : Bytes) : Bytes := (s.reverse.takeWhile (· != ch%'/')).reverse

/-- `strings.EqualFold(prefix[:3], "xml")` for a prefix of at least three bytes (`/repo/xml/marshal.go` 473); none of the
letters folds with a character outside ASCII. -/
def startsXml (s : Bytes) : Bool :=
  (s.take 3).map (fun b => if 65 ≤ b.toNat ∧ b.toNat ≤ 90 then b + 32 else b) == b!"xml"

/-- The name picked for a new prefix before looking for collisions (`/repo/xml/marshal.go` 459-475). -/
def pickPrefix (e : Elem) (uri preferred : Bytes) : Bytes :=
  let p := afterSlash (if preferred = [] ∨ mget e.prefixToNS preferred ≠ [] then trimSlashes uri else preferred)
  let p := if p = [] ∨ isName p = false ∨ ch%':' ∈ p then b!"_" else p
  if startsXml p then ch%'_' :: p else p

/-- The loop looking for a free prefix (`/repo/xml/marshal.go` 478-483).  Fuel: one unit per candidate. -/
def freeId (m : List (Bytes × Bytes)) (p : Bytes) : Nat → Nat → Bytes × Nat
  | 0, s => (p ++ ch%'_' :: Strconv.formatUint s, s)
  | n + 1, s =>
    if mget m (p ++ ch%'_' :: Strconv.formatUint s) = [] then (p ++ ch%'_' :: Strconv.formatUint s, s)
    else freeId m p n (s + 1)

/-- The prefix and the value of `seq` after the search for a free name (`/repo/xml/marshal.go` 476-484). -/
def uniquePrefix (e : Elem) (seq : Nat) (p : Bytes) : Bytes × Nat :=
  if mget e.prefixToNS p ≠ [] then freeId e.prefixToNS p e.prefixToNS.length (seq + 1) else (p, seq)

/-- Records a new prefix on the innermost element (`/repo/xml/marshal.go` 486-489). -/
def recordPrefix (e : Elem) (uri p : Bytes) : Elem :=
  { e with
    nsToPrefix := if mget e.nsToPrefix uri = [] then (uri, p) :: e.nsToPrefix else e.nsToPrefix
    prefixToNS := (p, uri) :: e.prefixToNS }

/-- `createPrefix` (`/repo/xml/marshal.go` 442-492). -/
def createPrefix (ns : Ns) (uri preferred : Bytes) : Ns × Bytes × Bool :=
  if getPrefix ns.els uri ≠ [] ∧ (getPrefix ns.els uri = preferred ∨ preferred = []) then
    (ns, getPrefix ns.els uri, false)
  else
    match ns.els with
    | [] => (ns, [], false)
    | e :: els =>
      let u := uniquePrefix e ns.seq (pickPrefix e uri preferred)
      (⟨u.2, recordPrefix e uri u.1 :: els⟩, u.1, true)

/-- An attribute as written: name with prefix, and value before escaping. -/
structure TagAttr where
  name : Bytes
  value : Bytes
  deriving DecidableEq, Repr

/-- `xmlns:prefix`. -/
def xmlnsName (p : Bytes) : Bytes := xmlnsPrefix ++ ch%':' :: p

/-- Sets the prefix of the innermost element. -/
def setPre (ns : Ns) (p : Bytes) : Ns :=
  match ns.els with
  | [] => ns
  | e :: els => { ns with els := { e with pre := p } :: els }

/-- The prefix of the innermost element. -/
def topPre (ns : Ns) : Bytes :=
  match ns.els with
  | [] => []
  | e :: _ => e.pre

/-- An own `xmlns="uri"` attribute (`/repo/xml/marshal.go` 827-832). -/
def ownDefault (attrs : List Attr) (uri : Bytes) : Bool :=
  attrs.any fun a => a.name.space == [] && a.name.loc == xmlnsPrefix && a.value == uri

/-- An ancestor that was written without prefix in the same namespace (`/repo/xml/marshal.go` 834-841). -/
def ancestorDefault (els : List Elem) (uri : Bytes) : Bool := els.any fun e => e.pre == [] && e.xmlns == uri

/-- The first own `xmlns:prefix="uri"` attribute (`/repo/xml/marshal.go` 845-851). -/
def ownPrefix (attrs : List Attr) (uri : Bytes) : Option Attr :=
  attrs.find? fun a => a.name.space == xmlnsURL && a.name.loc != [] && a.value == uri

/-- The namespace of a new element (`/repo/xml/marshal.go` 823-860): `els` are the ancestors, `e` the new element.  The
result has the new element pushed; the flag is `spaceDefined`. -/
def placeElement (seq : Nat) (els : List Elem) (e : Elem) (attrs : List Attr) : Ns × Bool :=
  if e.xmlns = [] then (⟨seq, e :: els⟩, false)
  else if ownDefault attrs e.xmlns then (⟨seq, e :: els⟩, true)
  else if e.pre ≠ [] then (⟨seq, e :: els⟩, false)
  else if ancestorDefault els e.xmlns then (⟨seq, e :: els⟩, true)
  else
    match ownPrefix attrs e.xmlns with
    | some a =>
      let c := createPrefix ⟨seq, e :: els⟩ a.value a.name.loc
      (setPre c.1 c.2.1, true)
    | none =>
      let p := getPrefix (e :: els) e.xmlns
      (⟨seq, { e with pre := p } :: els⟩, p != [])

/-- The element name and the declaration written with it (`/repo/xml/marshal.go` 863-887). -/
def nameTag (ns : Ns) (defined : Bool) (xmlns name : Bytes) : Ns × Bytes × List TagAttr :=
  if topPre ns ≠ [] then
    if xmlns ≠ [] ∧ defined = false then
      let c := createPrefix ns xmlns (topPre ns)
      (setPre c.1 c.2.1, c.2.1 ++ ch%':' :: name, if c.2.2 then [⟨xmlnsName c.2.1, xmlns⟩] else [])
    else (ns, topPre ns ++ ch%':' :: name, [])
  else if xmlns ≠ [] then (ns, name, if defined then [] else [⟨xmlnsPrefix, xmlns⟩])
  else (ns, name, [])

/-- One attribute of a start tag (`/repo/xml/marshal.go` 890-911). -/
def writeAttr (ns : Ns) (a : Attr) : Ns × List TagAttr :=
  if a.name.loc = [] then (ns, [])
  else
    let sp := splitPrefixed a.name.loc
    if a.name.space = xmlnsURL then
      ((createPrefix ns a.value sp.2).1, [⟨xmlnsName sp.2, a.value⟩])
    else if a.name.space ≠ [] then
      let c := createPrefix ns a.name.space sp.1
      (c.1, (if c.2.2 then [⟨xmlnsName c.2.1, a.name.space⟩] else []) ++ [⟨c.2.1 ++ ch%':' :: sp.2, a.value⟩])
    else (ns, [⟨sp.2, a.value⟩])

/-- The attribute loop of `writeStart` (`/repo/xml/marshal.go` 890-911). -/
def writeAttrs : Ns → List Attr → Ns × List TagAttr
  | ns, [] => (ns, [])
  | ns, a :: l =>
    let r := writeAttr ns a
    let rs := writeAttrs r.1 l
    (rs.1, r.2 ++ rs.2)

/-- Errors of the printer. -/
inductive EncErr where
  | noName | noStart | prefixMismatch | nameMismatch | nsMismatch | unsupportedType | badType | attrError
  deriving DecidableEq, Repr

/-- The namespace part of `writeStart` (`/repo/xml/marshal.go` 814-914): the name and the attributes as written. -/
def nsStart (ns : Ns) (n : Name) (attrs : List Attr) : Except EncErr (Ns × Bytes × List TagAttr) :=
  if n.loc = [] then .error .noName
  else
    let e := newElement n
    let pl := placeElement ns.seq ns.els e attrs
    let nt := nameTag pl.1 pl.2 e.xmlns e.name
    let at' := writeAttrs nt.1 attrs
    .ok (at'.1, nt.2.1, nt.2.2 ++ at'.2)

/-- The namespace part of `writeEnd` (`/repo/xml/marshal.go` 916-949): the name as written. -/
def nsEnd (ns : Ns) (n : Name) : Except EncErr (Ns × Bytes) :=
  if n.loc = [] then .error .noName
  else
    match ns.els with
    | [] => .error .noStart
    | e :: els =>
      let sp := splitPrefixed n.loc
      if e.name = [] then .error .noStart
      else if sp.1 ≠ [] ∧ e.pre ≠ [] ∧ sp.1 ≠ e.pre then .error .prefixMismatch
      else if sp.2 ≠ e.name then .error .nameMismatch
      else if n.space ≠ e.xmlns then .error .nsMismatch
      else .ok ({ ns with els := els }, joinPrefixed e.pre e.name)

/-- The indentation part of `printer` (`/repo/xml/marshal.go` 398-410). -/
structure Ind where
  pre : Bytes
  indent : Bytes
  depth : Int
  indentedIn : Bool
  putNewline : Bool
  deriving DecidableEq, Repr

/-- The part of `writeIndent` that writes (`/repo/xml/marshal.go` 1224-1241). -/
def indentOut (i : Ind) (delta : Int) : Ind × Bytes :=
  ({ i with
      putNewline := true
      depth := if 0 < delta then i.depth + 1 else i.depth
      indentedIn := if 0 < delta then true else i.indentedIn },
    (if i.putNewline then [ch%'\n'] else []) ++ i.pre ++ (List.replicate i.depth.toNat i.indent).flatten)

/-- `writeIndent` (`/repo/xml/marshal.go` 1213-1242). -/
def writeIndent (i : Ind) (delta : Int) : Ind × Bytes :=
  if i.pre = [] ∧ i.indent = [] then (i, [])
  else if delta < 0 then
    if i.indentedIn then ({ i with depth := i.depth - 1, indentedIn := false }, [])
    else indentOut { i with depth := i.depth - 1, indentedIn := false } delta
  else indentOut i delta

/-- The printer. -/
structure Printer where
  ns : Ns
  ind : Ind
  deriving DecidableEq, Repr

/-- A printer as obtained from the pool, after `Indent` (`/repo/xml/marshal.go` 172-206). -/
def Printer.new (pre indent : Bytes) : Printer := ⟨⟨0, []⟩, ⟨pre, indent, 0, false, false⟩⟩

/-- Pieces of output: tags, escaped text, indentation, and `innerxml`. -/
inductive Out where
  | start (q : Bytes) (attrs : List TagAttr)
  | stop (q : Bytes)
  | text (b : Bytes)
  | str (b : Bytes)
  | raw (b : Bytes)
  | inner (b : Bytes)
  deriving DecidableEq, Repr

/-- ` name="value"` (`/repo/xml/marshal.go` 494-500, 881-884, 907-910). -/
def attrBytes (a : TagAttr) : Bytes := ch%' ' :: a.name ++ b!"=\"" ++ escapeString a.value ++ [ch%'"']

/-- The bytes of a piece: `writeStart`, `writeEnd`, `EscapeText` (without escaping newlines), `EscapeString`, and bytes
written as they are (indentation, `innerxml`). -/
def Out.bytes : Out → Bytes
  | .start q attrs => ch%'<' :: q ++ attrs.flatMap attrBytes ++ [ch%'>']
  | .stop q => b!"</" ++ q ++ [ch%'>']
  | .text b => escapeText false b
  | .str b => escapeString b
  | .raw b => b
  | .inner b => b

/-- `writeStart` (`/repo/xml/marshal.go` 814-914). -/
def writeStart (p : Printer) (n : Name) (attrs : List Attr) : Except EncErr (Printer × List Out) :=
  match nsStart p.ns n attrs with
  | .error e => .error e
  | .ok (ns, q, tas) =>
    let w := writeIndent p.ind 1
    .ok (⟨ns, w.1⟩, [.raw w.2, .start q tas])

/-- `writeEnd` (`/repo/xml/marshal.go` 916-949). -/
def writeEnd (p : Printer) (n : Name) : Except EncErr (Printer × List Out) :=
  match nsEnd p.ns n with
  | .error e => .error e
  | .ok (ns, q) =>
    let w := writeIndent p.ind (-1)
    .ok (⟨ns, w.1⟩, [.raw w.2, .stop q])

/-- What `marshalValue` and `marshalStruct` (`/repo/xml/marshal.go` 510-672, 1002-1155) hand to the printer: elements, the
character data of a `chardata` field, the text of a simple element, and `innerxml`. -/
inductive Item where
  | elem (name : Name) (attrs : List Attr) (kids : List Item)
  | text (b : Bytes)
  | str (b : Bytes)
  | raw (b : Bytes)
  deriving Repr

mutual
/-- Printing one item: `writeStart`, the content, `writeEnd` with the same name (`/repo/xml/marshal.go` 640-671). -/
def encItem (p : Printer) : Item → Except EncErr (Printer × List Out)
  | .elem n attrs kids =>
    match writeStart p n attrs with
    | .error e => .error e
    | .ok (p1, o1) =>
      match encItems p1 kids with
      | .error e => .error e
      | .ok (p2, o2) =>
        match writeEnd p2 n with
        | .error e => .error e
        | .ok (p3, o3) => .ok (p3, o1 ++ o2 ++ o3)
  | .text b => .ok (p, [.text b])
  | .str b => .ok (p, [.str b])
  | .raw b => .ok (p, [.inner b])
/-- Printing a list of items. -/
def encItems (p : Printer) : List Item → Except EncErr (Printer × List Out)
  | [] => .ok (p, [])
  | i :: l =>
    match encItem p i with
    | .error e => .error e
    | .ok (p1, o1) =>
      match encItems p1 l with
      | .error e => .error e
      | .ok (p2, o2) => .ok (p2, o1 ++ o2)
end

/-- The bytes of a list of pieces. -/
def outBytes (l : List Out) : Bytes := l.flatMap Out.bytes

/-- `Encode` on a fresh encoder (`/repo/xml/marshal.go` 214-220): the bytes written. -/
def encode (pre indent : Bytes) (items : List Item) : Except EncErr Bytes :=
  match encItems (Printer.new pre indent) items with
  | .error e => .error e
  | .ok (_, o) => .ok (outBytes o)

end Verif.Xml
