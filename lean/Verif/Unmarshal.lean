import Verif.Marshal
import Verif.XmlNsProps

/-!
From tokens to Go values: `Unmarshal`, `unmarshal`, `unmarshalAttr`, `copyValue`, `unmarshalPath` and `Skip`
(`/repo/xml/read.go` 137-161, 255-308, 325-787).

Simplifications.  As in `Verif/Schema.lean`, tags with `>` paths, `cdata`, `comment` and `any` without `attr` do not occur,
and values are represented by the fields of `getTypeInfo`.  A failing call discards the value, so only the error is
returned.  The tokens are given as a list together with what happens when it is used up; each carries its position in
the input, which stands for the decoder's `saved` buffer (`innerxml`).
-/
namespace Verif.Bind

open Verif.Xml Verif.Utf8

/-- Errors of unmarshalling.  `hang` is a call that does not return; `fuel` is not in the code and shown
unreachable (`unmarshalDoc_ne_fuel`). -/
inductive RErr where
  | syntaxErr (e : XErr)
  | hang
  | depth
  | expectedName
  | expectedNs
  | number
  | duration
  | unknownType
  | info (e : TErr)
  | fuel
  deriving DecidableEq, Repr

/-- `unicode.IsSpace`. -/
def isUniSpace (r : Nat) : Bool :=
  (9 ≤ r && r ≤ 13) || r == 0x20 || r == 0x85 || r == 0xA0 || r == 0x1680 || (0x2000 ≤ r && r ≤ 0x200a) ||
    r == 0x2028 || r == 0x2029 || r == 0x202f || r == 0x205f || r == 0x3000

/-- `strings.TrimSpace`. -/
def trimSpace (s : Bytes) : Bytes :=
  (((((runes s).dropWhile fun p => isUniSpace p.1).reverse).dropWhile fun p => isUniSpace p.1).reverse).flatMap (·.2)

/-- `copyValue` for a value that is not a pointer (`/repo/xml/read.go` 631-697). -/
def copySimple (io : FloatIO) (k : Kind) (src : Bytes) : Except RErr Val :=
  match k with
  | .str => .ok (.str src)
  | .bool =>
    if src = [] then .ok (.bool false)
    else match Strconv.parseBool (trimSpace src) with
      | some b => .ok (.bool b)
      | none => .error .number
  | .int bits =>
    if src = [] then .ok (.int 0)
    else match Strconv.parseInt (trimSpace src) bits with
      | some i => .ok (.int i)
      | none => .error .number
  | .uint bits =>
    if src = [] then .ok (.uint 0)
    else match Strconv.parseUint (trimSpace src) bits with
      | some n => .ok (.uint n)
      | none => .error .number
  | .float bits =>
    if src = [] then .ok (.float 0)
    else match io.parse bits (trimSpace src) with
      | some x => .ok (.float x)
      | none => .error .number
  | .duration =>
    if src = [] then .ok (.int 0)
    else match Strconv.parseInt (trimSpace src) 64 with
      | some i => .ok (.int i)
      | none => .error .number
  | .floatInf =>
    if src = [] then .ok (.float 0)
    else match io.parse 64 (trimSpace src) with
      | some x => .ok (.float x)
      | none => .error .number

/-- `copyValue` (`/repo/xml/read.go` 631-697). -/
def copyValue (io : FloatIO) : Sch → Bytes → Except RErr Val
  | .simple k, src => copySimple io k src
  | .ptr (.simple k), src =>
    match copySimple io k src with
    | .ok v => .ok (.ptr (some v))
    | .error e => .error e
  | _, _ => .error .unknownType

/-- A simple value from an attribute: the methods of `Duration` (`/repo/mpd/duration.go` 41-48) and `FloatInf64`
(`/repo/mpd/mpd.go` 1239-1250), otherwise `copyValue`. -/
def readSimpleAttr (io : FloatIO) (k : Kind) (s : Bytes) : Except RErr Val :=
  match k with
  | .duration =>
    match Duration.parse io.arch s with
    | .ok d => .ok (.int d)
    | .error _ => .error .duration
  | .floatInf =>
    if s = (b!"INF") then .ok (.float infBits)
    else match io.parse 64 s with
      | some x => .ok (.float x)
      | none => .error .number
  | k => copySimple io k s

/-- `unmarshalAttr` (`/repo/xml/read.go` 255-308): the new value of the field. -/
def readAttr (io : FloatIO) : Sch → Val → Attr → Except RErr Val
  | .simple k, _, a => readSimpleAttr io k a.value
  | .ptr (.ptr _), _, _ => .error .unknownType
  | .ptr s, .ptr (some v), a =>
    match readAttr io s v a with
    | .ok w => .ok (.ptr (some w))
    | .error e => .error e
  | .ptr s, _, a =>
    match readAttr io s s.zero a with
    | .ok w => .ok (.ptr (some w))
    | .error e => .error e
  | .slice s, .slice l, a =>
    match readAttr io s s.zero a with
    | .ok w => .ok (.slice (l ++ [w]))
    | .error e => .error e
  | .attr, _, a => .ok (.attr a)
  | _, _, _ => .error .unknownType

/-- The field that `typeInfo.attrs` gives for a name (`/repo/xml/typeinfo.go` 146-163).  Keys are distinct
(`addFieldInfo`), so the first field is the only one. -/
def attrKey (infos : List FInfo) (n : Name) : Option Nat :=
  infos.findIdx? fun fi => fi.mode == .attr && fi.xmlns == n.space && fi.loc == n.loc

/-- The field an attribute goes to (`/repo/xml/read.go` 479-500): the exact name, then the name without namespace, then the
`any,attr` field. -/
def attrField (infos : List FInfo) (n : Name) : Option Nat :=
  match attrKey infos n with
  | some i => some i
  | none =>
    match attrKey infos ⟨[], n.loc⟩ with
    | some i => some i
    | none => infos.findIdx? fun fi => fi.mode == .anyAttr

/-- `value(sv, initNilPointers)` (`/repo/xml/typeinfo.go` 412-429) for field `i`: if it lies behind a nil embedded pointer,
the pointer is set, and with it all fields behind it. -/
def initGroup (infos : List FInfo) (subs : List Sch) (vs : List Val) (i : Nat) : List Val :=
  match vs[i]?, infos[i]? with
  | some v, some fi => if v.isAbsent then allocGroup fi.grp infos subs vs else vs
  | _, _ => vs
where
  /-- The fields of group `g` get their zero values. -/
  allocGroup (g : Option Nat) : List FInfo → List Sch → List Val → List Val
    | fi :: fis, s :: ss, v :: vs => (if fi.grp = g then s.zero else v) :: allocGroup g fis ss vs
    | _, _, vs => vs

/-- Runs `f` on field `i`, initialised if necessary, and stores the result. -/
def updField (infos : List FInfo) (subs : List Sch) (vs : List Val) (i : Nat) (f : Sch → Val → Except RErr Val) :
    Except RErr (List Val) :=
  match subs[i]?, (initGroup infos subs vs i)[i]? with
  | some s, some v =>
    match f s v with
    | .ok w => .ok ((initGroup infos subs vs i).set i w)
    | .error e => .error e
  | _, _ => .error .unknownType

/-- The loop over the attributes of a start element (`/repo/xml/read.go` 479-500). -/
def readAttrs (io : FloatIO) (infos : List FInfo) (subs : List Sch) : List Val → List Attr → Except RErr (List Val)
  | vs, [] => .ok vs
  | vs, a :: l =>
    match attrField infos a.name with
    | none => readAttrs io infos subs vs l
    | some i =>
      match updField infos subs vs i (fun s v => readAttr io s v a) with
      | .error e => .error e
      | .ok vs' => readAttrs io infos subs vs' l

/-- The check of the element's name against the `XMLName` field (`/repo/xml/read.go` 444-458). -/
def checkName (xn : Option FInfo) (n : Name) : Except RErr Unit :=
  match xn with
  | none => .ok ()
  | some x =>
    if x.loc ≠ [] ∧ x.loc ≠ n.loc then .error .expectedName
    else if x.xmlns ≠ [] ∧ x.xmlns ≠ n.space then .error .expectedNs
    else .ok ()

/-- The field an element goes to (`unmarshalPath`, `/repo/xml/read.go` 704-738). -/
def elemField (infos : List FInfo) (n : Name) : Option Nat :=
  infos.findIdx? fun fi => fi.mode == .elem && (fi.xmlns == [] || fi.xmlns == n.space) && fi.loc == n.loc

/-- The first field with a mode. -/
def modeField (infos : List FInfo) (m : Mode) : Option Nat := infos.findIdx? fun fi => fi.mode == m

/-- A token, the input left before it and the input left after it. -/
structure PTok where
  tok : Token
  before : Bytes
  after : Bytes
  deriving DecidableEq, Repr

/-- `Skip` (`/repo/xml/read.go` 770-787): the tokens left after the end element; `none` if there is none. -/
def skip : Nat → List PTok → Option (List PTok)
  | _, [] => none
  | d, t :: l =>
    match t.tok with
    | .startElement _ _ => skip (d + 1) l
    | .endElement _ =>
      match d with
      | 0 => some l
      | d' + 1 => skip d' l
    | _ => skip d l

/-- `maxUnmarshalDepth` (`/repo/xml/read.go` 317-320), on a platform other than WebAssembly. -/
def maxDepth : Nat := 10000

/-- What is collected while the content of an element is read: the fields, the character data, the input before the end
element (for `innerxml`), and the tokens left. -/
structure Content where
  vs : List Val
  data : Bytes
  before : Bytes
  toks : List PTok

/-- The end of `unmarshal` for a struct (`/repo/xml/read.go` 591-629): character data and `innerxml` are stored. -/
def finishStruct (io : FloatIO) (infos : List FInfo) (subs : List Sch) (vs : List Val) (data inner : Bytes) :
    Except RErr (List Val) :=
  let r : Except RErr (List Val) :=
    match modeField infos .chardata with
    | none => .ok vs
    | some i => updField infos subs vs i (fun s _ => copyValue io s data)
  match r with
  | .error e => .error e
  | .ok vs' =>
    match modeField infos .innerxml with
    | none => .ok vs'
    | some i => updField infos subs vs' i fun s v =>
        match s with
        | .simple .str => .ok (.str inner)
        | _ => .ok v

/-- What a pointer points to, or a new zero value (`/repo/xml/read.go` 352-357). -/
def Val.deref (s : Sch) : Val → Val
  | .ptr (some w) => w
  | _ => s.zero

mutual
/-- `unmarshal` (`/repo/xml/read.go` 325-629) of the element with the name `n` and the attributes `as`, after which the
input `rest` and the tokens `ts` are left.  `fin` is the error met when the tokens are used up.  A pointer is followed once. -/
def unmarshal (io : FloatIO) (fin : RErr) : Nat → Nat → Sch → Val → Name → List Attr → Bytes → List PTok →
    Except RErr (Val × List PTok)
  | 0, _, _, _, _, _, _, _ => .error .fuel
  | f + 1, d, s, v, n, as, rest, ts =>
    if maxDepth ≤ d then .error .depth
    else
      match s with
      | .ptr s' =>
        match unmarshalIn io fin f d s' (v.deref s') n as rest ts with
        | .ok (w, ts') => .ok (.ptr (some w), ts')
        | .error e => .error e
      | s => unmarshalIn io fin f d s v n as rest ts
/-- `unmarshal` from the switch on the kind of the value on (`/repo/xml/read.go` 397-629). -/
def unmarshalIn (io : FloatIO) (fin : RErr) : Nat → Nat → Sch → Val → Name → List Attr → Bytes → List PTok →
    Except RErr (Val × List PTok)
  | 0, _, _, _, _, _, _, _ => .error .fuel
  | f + 1, d, s, v, n, as, rest, ts =>
    match s, v with
    | .slice s', .slice l =>
      match unmarshal io fin f (d + 1) s' s'.zero n as rest ts with
      | .ok (w, ts') => .ok (.slice (l ++ [w]), ts')
      | .error e => .error e
    | .simple k, _ =>
      match content io fin f d [] [] [] [] ts with
      | .error e => .error e
      | .ok c =>
        match copySimple io k c.data with
        | .error e => .error e
        | .ok w => .ok (w, c.toks)
    | .struct _ xn infos subs, .struct xv vs =>
      match checkName xn n with
      | .error e => .error e
      | .ok () =>
        match readAttrs io infos subs vs as with
        | .error e => .error e
        | .ok vs1 =>
          match content io fin f d infos subs vs1 [] ts with
          | .error e => .error e
          | .ok c =>
            match finishStruct io infos subs c.vs c.data (rest.take (rest.length - c.before.length)) with
            | .error e => .error e
            | .ok vs2 => .ok (.struct (if xn.isSome then n else xv) vs2, c.toks)
    | .bad e, _ => .error (.info e)
    | _, _ => .error .unknownType
/-- The loop over the tokens of an element (`/repo/xml/read.go` 535-589) with `unmarshalPath` (704-763). -/
def content (io : FloatIO) (fin : RErr) : Nat → Nat → List FInfo → List Sch → List Val → Bytes → List PTok →
    Except RErr Content
  | 0, _, _, _, _, _, _ => .error .fuel
  | _ + 1, _, _, _, _, _, [] => .error fin
  | f + 1, d, infos, subs, vs, data, t :: ts =>
    match t.tok with
    | .startElement n as =>
      match elemField infos n with
      | some i =>
        match subs[i]?, (initGroup infos subs vs i)[i]? with
        | some s, some v =>
          match unmarshal io fin f (d + 1) s v n as t.after ts with
          | .error e => .error e
          | .ok (w, ts') => content io fin f d infos subs ((initGroup infos subs vs i).set i w) data ts'
        | _, _ => .error .unknownType
      | none =>
        match skip 0 ts with
        | none => .error fin
        | some ts' => content io fin f d infos subs vs data ts'
    | .endElement _ => .ok ⟨vs, data, t.before, ts⟩
    | .charData b => content io fin f d infos subs vs (data ++ b) ts
    | _ => content io fin f d infos subs vs data ts
end

/-- The tokens of an input, at most `n`, and how they end: an error, or `none` if there are more. -/
def stream : Nat → Dec → List PTok × Option XErr
  | 0, _ => ([], none)
  | n + 1, d =>
    match token d with
    | .error e => ([], some e)
    | .ok (t, d') => (⟨t, d.raw.rest, d'.raw.rest⟩ :: (stream n d').1, (stream n d').2)

/-- The search for the first start element (`/repo/xml/read.go` 329-341). -/
def findStart : List PTok → Option (Name × List Attr × Bytes × List PTok)
  | [] => none
  | t :: ts =>
    match t.tok with
    | .startElement n as => some (n, as, t.after, ts)
    | _ => findStart ts

/-- `Unmarshal` (`/repo/xml/read.go` 137-161) of an input into a pointer to a zero value of a struct type.  Fuel: at most
`2 * length + 2` tokens are read; a decoder that returns more tokens never comes to an end (`stream_all`). -/
def unmarshalDoc (io : FloatIO) (s : Sch) (doc : Bytes) : Except RErr Val :=
  let r := stream (2 * doc.length + 2) (Dec.new doc)
  let fin : RErr := match r.2 with
    | some e => .syntaxErr e
    | none => .hang
  match findStart r.1 with
  | none => .error fin
  | some (n, as, rest, ts) =>
    match unmarshalIn io fin (ts.length + 2 * maxDepth + 2) 0 s s.zero n as rest ts with
    | .ok (v, _) => .ok v
    | .error e => .error e

end Verif.Bind
