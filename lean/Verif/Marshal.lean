import Verif.Schema
import Verif.Duration

/-!
From Go values to the elements handed to the printer: `marshalValue`, `marshalAttr`, `marshalSimple` and `marshalStruct`
(`/repo/xml/marshal.go` 510-745, 951-985, 1002-1155), and the attribute methods of `Duration` and `FloatInf64`.

Simplifications.  Only the interfaces implemented by the types of the manifest are modelled: `MarshalerAttr` by `*Duration`
and `*FloatInf64`.  Every value is addressable (the root is passed by pointer; fields, slice elements and what a pointer
points to are addressable), so a `Duration` field that is not a pointer uses the method of its pointer.  The elements are
first collected and then printed (`Verif/XmlPrint.lean`); Go prints while it walks the value, so that an error or a panic
may come after part of the output has been written.  Text is modelled by `Item.text` for `EscapeText` and `Item.str` for
`EscapeString`.
-/
namespace Verif.Bind

open Verif.Xml

/-- The parts of `strconv` for floating-point numbers, which are not modelled: `formatG bits` is
`FormatFloat(x, 'g', -1, bits)`, `formatF` is `FormatFloat(x, 'f', -1, 64)` and `parse bits` is `ParseFloat(s, bits)`, on bit
patterns: `parse` gives patterns of so many bits.  `arch` is the conversion of out-of-range floats used by `ParseDuration`. -/
structure FloatIO where
  formatG : Nat → Nat → Bytes
  formatF : Nat → Bytes
  parse : Nat → Bytes → Option Nat
  arch : Duration.Arch
  parse_bits : ∀ b s x, b = 32 ∨ b = 64 → parse b s = some x → x < 2 ^ b

/-- The bit pattern of `+Inf` in 64 bits. -/
def infBits : Nat := 0x7FF0000000000000

/-- Errors and panics of marshalling. -/
inductive MErr where
  | panic
  | unsupported
  | info (e : TErr)
  deriving DecidableEq, Repr

/-- `marshalSimple` (`/repo/xml/marshal.go` 951-985).  The kind of `Duration` is `int64`, that of `FloatInf64` is
`float64`. -/
def marshalSimple (io : FloatIO) : Kind → Val → Except MErr Bytes
  | .str, .str b => .ok b
  | .bool, .bool b => .ok (Strconv.formatBool b)
  | .int _, .int i => .ok (Strconv.formatInt i)
  | .uint _, .uint n => .ok (Strconv.formatUint n)
  | .float b, .float x => .ok (io.formatG b x)
  | .duration, .int i => .ok (Strconv.formatInt i)
  | .floatInf, .float x => .ok (io.formatG 64 x)
  | _, _ => .error .unsupported

/-- `(*FloatInf64).MarshalXMLAttr` (`/repo/mpd/mpd.go` 1227-1237): the text for a value. -/
def floatInfText (io : FloatIO) (x : Nat) : Bytes := if x = infBits then (b!"INF") else io.formatF x

/-- `reflect.Value.IsZero` for a floating-point number: both zeros. -/
def floatIsZero (bits x : Nat) : Bool := x == 0 || x == 2 ^ (bits - 1)

/-- `isEmptyValue` (`/repo/xml/marshal.go` 1288-1301). -/
def isEmpty : Sch → Val → Bool
  | .simple (.float bits), .float x => floatIsZero bits x
  | .simple .floatInf, .float x => floatIsZero 64 x
  | _, .str b => b == []
  | _, .bool b => !b
  | _, .int i => i == 0
  | _, .uint n => n == 0
  | _, .ptr v => v.isNone
  | _, .slice l => l.isEmpty
  | _, _ => false

/-- A simple value as an attribute: the methods of `Duration` and `FloatInf64`, otherwise `marshalSimple`
(`/repo/xml/marshal.go` 676-745; `/repo/mpd/duration.go` 34-39). -/
def simpleAttr (io : FloatIO) : Kind → Val → Except MErr Bytes
  | .duration, .int i =>
    match Duration.goString i with
    | none => .error .panic
    | some s => .ok s
  | .floatInf, .float x => .ok (floatInfText io x)
  | k, v => marshalSimple io k v

/-- Runs calls in order and appends what they produce. -/
def concatM {ε α} : List (Except ε (List α)) → Except ε (List α)
  | [] => .ok []
  | .error e :: _ => .error e
  | .ok a :: l =>
    match concatM l with
    | .error e => .error e
    | .ok b => .ok (a ++ b)

/-- The value of a field behind a nil embedded pointer. -/
def Val.isAbsent : Val → Bool
  | .absent => true
  | _ => false

/-- `marshalAttr` (`/repo/xml/marshal.go` 675-745).  An invalid value panics (`val.Type()` in line 676).  One pointer is
followed; a nil pointer gives no attribute, also for `Duration` and `FloatInf64`, whose methods return an empty name. -/
def marshalAttr (io : FloatIO) : Sch → Name → Val → Except MErr (List Attr)
  | _, _, .absent => .error .panic
  | .simple k, n, v =>
    match simpleAttr io k v with
    | .error e => .error e
    | .ok s => .ok [⟨n, s⟩]
  | .ptr _, _, .ptr none => .ok []
  | .ptr (.ptr _), _, .ptr (some _) => .error .unsupported
  | .ptr s, n, .ptr (some v) => marshalAttr io s n v
  | .slice s, n, .slice l => concatM (l.map fun v => marshalAttr io s n v)
  | .attr, _, .attr a => .ok [a]
  | _, _, _ => .error .unsupported

/-- The attributes of a struct (`/repo/xml/marshal.go` 616-637). -/
def marshalAttrs (io : FloatIO) : List FInfo → List Sch → List Val → Except MErr (List Attr)
  | fi :: fis, s :: ss, v :: vs =>
    if fi.mode = .attr ∨ fi.mode = .anyAttr then
      if fi.omitE ∧ (isEmpty s v ∨ v.isAbsent) then marshalAttrs io fis ss vs
      else
        match marshalAttr io s ⟨fi.xmlns, joinPrefixed fi.pre fi.loc⟩ v with
        | .error e => .error e
        | .ok a =>
          match marshalAttrs io fis ss vs with
          | .error e => .error e
          | .ok b => .ok (a ++ b)
    else marshalAttrs io fis ss vs
  | _, _, _ => .ok []

/-- The name of an element (`/repo/xml/marshal.go` 577-608): the `XMLName` field's tag or value, the field's tag, the type's
name. -/
def startName (xn : Option FInfo) (xv : Name) (fi : Option FInfo) (tname : Bytes) : Name :=
  let n : Name :=
    match xn with
    | none => ⟨[], []⟩
    | some x => if x.loc ≠ [] then ⟨x.xmlns, joinPrefixed x.pre x.loc⟩ else if xv.loc ≠ [] then xv else ⟨[], []⟩
  if n.loc ≠ [] then n
  else
    match fi with
    | some f => if joinPrefixed f.pre f.loc ≠ [] then ⟨f.xmlns, joinPrefixed f.pre f.loc⟩ else ⟨f.xmlns, tname⟩
    | none => ⟨n.space, tname⟩

/-- `xmlns=""` for an element whose `XMLName` has an empty tag and no namespace inside an element with a namespace
(`/repo/xml/marshal.go` 639-644). -/
def resetNs (parentNs : Bytes) (xn : Option FInfo) (n : Name) : List Attr :=
  match xn with
  | none => []
  | some x => if n.space = [] ∧ x.xmlns = [] ∧ x.loc = [] ∧ parentNs ≠ [] then [⟨⟨[], xmlnsPrefix⟩, []⟩] else []

/-- The text of a `chardata` field (`/repo/xml/marshal.go` 1017-1083). -/
def charText (io : FloatIO) : Sch → Val → List Item
  | .simple k, v =>
    match marshalSimple io k v with
    | .ok b => [.text b]
    | .error _ => []
  | .ptr s, .ptr (some v) => charText io s v
  | _, _ => []

/-- An `innerxml` field (`/repo/xml/marshal.go` 1123-1133).  A field that is not a string is treated as an element; there is
none. -/
def rawText : Sch → Val → Except MErr (List Item)
  | .simple .str, .str b => .ok [.raw b]
  | _, _ => .error .unsupported

/-- `omitempty` (`/repo/xml/marshal.go` 520-522). -/
def omits (fi : Option FInfo) (s : Sch) (v : Val) : Bool :=
  match fi with
  | none => false
  | some f => f.omitE && isEmpty s v

/-- One field of `marshalStruct` (`/repo/xml/marshal.go` 1004-1151); `r` is what `marshalValue` gives for it.  A field
behind a nil embedded pointer is skipped. -/
def fieldItems (io : FloatIO) (fi : FInfo) (s : Sch) (v : Val) (r : Except MErr (List Item)) : Except MErr (List Item) :=
  if fi.mode = .attr ∨ fi.mode = .anyAttr ∨ v.isAbsent then .ok []
  else if fi.mode = .chardata then .ok (charText io s v)
  else if fi.mode = .innerxml then rawText s v
  else if omits (some fi) s v then .ok []
  else r

mutual
/-- `marshalValue` after the check for `omitempty` (`/repo/xml/marshal.go` 524-672).  `parentNs` is the namespace of the
enclosing element (`p.elements[len(p.elements)-1].xmlns`), empty at the top. -/
def marshalV (io : FloatIO) (parentNs : Bytes) (fi : Option FInfo) : Sch → Val → Except MErr (List Item)
  | .ptr _, .ptr none => .ok []
  | .ptr s, .ptr (some v) => marshalV io parentNs fi s v
  | .slice s, .slice l =>
    concatM (l.map fun v => if omits fi s v then .ok [] else marshalV io parentNs fi s v)
  | .simple k, v =>
    match marshalSimple io k v with
    | .error e => .error e
    | .ok b => .ok [.elem (startName none ⟨[], []⟩ fi []) [] [.str b]]
  | .struct tn xn infos subs, .struct xv vs =>
    match marshalAttrs io infos subs vs with
    | .error e => .error e
    | .ok attrs =>
      match marshalFields io (startName xn xv fi tn).space infos subs vs with
      | .error e => .error e
      | .ok kids => .ok [.elem (startName xn xv fi tn) (attrs ++ resetNs parentNs xn (startName xn xv fi tn)) kids]
  | .bad e, _ => .error (.info e)
  | _, _ => .error .unsupported
/-- `marshalStruct` (`/repo/xml/marshal.go` 1002-1155); `ns` is the namespace of the element. -/
def marshalFields (io : FloatIO) (ns : Bytes) : List FInfo → List Sch → List Val → Except MErr (List Item)
  | fi :: fis, s :: ss, v :: vs =>
    match fieldItems io fi s v (marshalV io ns (some fi) s v) with
    | .error e => .error e
    | .ok a =>
      match marshalFields io ns fis ss vs with
      | .error e => .error e
      | .ok b => .ok (a ++ b)
  | _, _, _ => .ok []
end

/-- `Encode` (`/repo/xml/marshal.go` 214-220) applied to a pointer to a value. -/
def marshal (io : FloatIO) (s : Sch) (v : Val) : Except MErr (List Item) := marshalV io [] none s v

end Verif.Bind
