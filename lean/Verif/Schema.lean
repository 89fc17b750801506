import Verif.XmlPrint

/-!
Go struct types and the information `getTypeInfo` derives from them (`/repo/xml/typeinfo.go` 90-372).

Simplifications.  A struct value is represented by the fields that `getTypeInfo` lists, in that order: the fields of an
embedded struct stand at the place of the embedded struct, unexported fields and fields tagged `-` are left out.  A field
behind a nil embedded pointer is `Val.absent`, the counterpart of an invalid `reflect.Value`.  Tags with `>` paths, `cdata`,
`comment` or `any` without `attr`, and embedded structs with an `XMLName` field are not modelled and give the error
`notModelled`; `mpd_ok` in `Verif/ReadProps.lean` shows that no type of the manifest needs them.
-/
namespace Verif.Bind

open Verif.Xml

/-- Kinds of simple values.  `duration` and `floatInf` are the named types with their own attribute methods
(`/repo/mpd/duration.go` 29-50, `/repo/mpd/mpd.go` 1225-1250). -/
inductive Kind where
  | str | bool | int (bits : Nat) | uint (bits : Nat) | float (bits : Nat) | duration | floatInf
  deriving DecidableEq, Repr

/-- A field of a Go struct: its name, whether it is embedded, whether it is exported, and the `xml` part of its tag. -/
structure Decl where
  name : Bytes
  embedded : Bool
  exported : Bool
  tag : Bytes
  deriving DecidableEq, Repr

/-- Go types used by the manifest.  A struct has a name, its fields and, in the same order, their types. -/
inductive Typ where
  | simple (k : Kind)
  | ptr (t : Typ)
  | slice (t : Typ)
  | name
  | attr
  | hidden
  | struct (tname : Bytes) (decls : List Decl) (typs : List Typ)
  deriving Repr

/-- The modes of a field (`/repo/xml/typeinfo.go` 39-52). -/
inductive Mode where
  | elem | attr | chardata | innerxml | anyAttr
  deriving DecidableEq, Repr

/-- `fieldInfo` (`/repo/xml/typeinfo.go` 29-37).  `depth` is the length of `idx`; `grp` is set for a field promoted from an
embedded pointer and identifies that pointer. -/
structure FInfo where
  pre : Bytes
  loc : Bytes
  xmlns : Bytes
  mode : Mode
  omitE : Bool
  depth : Nat
  grp : Option Nat
  deriving DecidableEq, Repr

/-- Errors of `getTypeInfo`. -/
inductive TErr where
  | invalidTag | nsWithoutName | nameConflict | tagPath | notModelled
  deriving DecidableEq, Repr

/-- A type with the `typeInfo` of every struct in it.  `bad` stands for a struct whose `getTypeInfo` fails. -/
inductive Sch where
  | simple (k : Kind)
  | ptr (s : Sch)
  | slice (s : Sch)
  | name
  | attr
  | struct (tname : Bytes) (xmlname : Option FInfo) (infos : List FInfo) (subs : List Sch)
  | bad (e : TErr)
  deriving Repr

/-- `strings.Cut(s, " ")`: namespace and tag. -/
def cutSpace (s : Bytes) : Bytes × Bytes :=
  match s.dropWhile (· != ch%' ') with
  | [] => ([], s)
  | _ :: t => (s.takeWhile (· != ch%' '), t)

/-- `strings.Split(s, ",")`. -/
def splitComma : Bytes → List Bytes
  | [] => [[]]
  | b :: t =>
    if b = ch%',' then [] :: splitComma t
    else
      match splitComma t with
      | [] => [[b]]
      | h :: r => (b :: h) :: r

/-- The flags of a tag (`/repo/xml/typeinfo.go` 39-52, 185-202). -/
structure Flags where
  attr : Bool := false
  cdata : Bool := false
  chardata : Bool := false
  innerxml : Bool := false
  comment : Bool := false
  any : Bool := false
  omitE : Bool := false

/-- One flag (`/repo/xml/typeinfo.go` 185-202); unknown flags are ignored. -/
def addFlag (f : Flags) (s : Bytes) : Flags :=
  if s = (b!"attr") then { f with attr := true }
  else if s = (b!"cdata") then { f with cdata := true }
  else if s = (b!"chardata") then { f with chardata := true }
  else if s = (b!"innerxml") then { f with innerxml := true }
  else if s = (b!"comment") then { f with comment := true }
  else if s = (b!"any") then { f with any := true }
  else if s = (b!"omitempty") then { f with omitE := true }
  else f

/-- The mode given by the flags, with the validity checks (`/repo/xml/typeinfo.go` 204-227). -/
def flagsMode (f : Flags) (isXmlName : Bool) (tag : Bytes) : Except TErr Mode :=
  match f.attr, f.cdata, f.chardata, f.innerxml, f.comment, f.any with
  | false, false, false, false, false, false => .ok .elem
  | true, false, false, false, false, false => if isXmlName then .error .invalidTag else .ok .attr
  | false, false, true, false, false, false =>
    if isXmlName ∨ tag ≠ [] ∨ f.omitE then .error .invalidTag else .ok .chardata
  | false, false, false, true, false, false =>
    if isXmlName ∨ tag ≠ [] ∨ f.omitE then .error .invalidTag else .ok .innerxml
  | true, false, false, false, false, true => if isXmlName ∨ tag ≠ [] then .error .invalidTag else .ok .anyAttr
  | false, true, false, false, false, false => .error .notModelled
  | false, false, false, false, true, false => .error .notModelled
  | false, false, false, false, false, true => .error .notModelled
  | _, _, _, _, _, _ => .error .invalidTag

/-- `xmlName`. -/
def xmlNameField : Bytes := b!"XMLName"

/-- The part of `structFieldInfo` before the name is settled (`/repo/xml/typeinfo.go` 170-233): namespace, name part of the
tag, mode, `omitempty`. -/
def parseTag (tag : Bytes) (isXmlName : Bool) : Except TErr (Bytes × Bytes × Mode × Bool) :=
  let c := cutSpace tag
  match splitComma c.2 with
  | [] => .error .invalidTag
  | [t] => if c.1 ≠ [] ∧ t = [] then .error .nsWithoutName else .ok (c.1, t, .elem, false)
  | t :: flags =>
    let f := flags.foldl addFlag {}
    match flagsMode f isXmlName t with
    | .error e => .error e
    | .ok m => if c.1 ≠ [] ∧ t = [] then .error .nsWithoutName else .ok (c.1, t, m, f.omitE)

/-- `structFieldInfo` for the `XMLName` field (`/repo/xml/typeinfo.go` 235-241). -/
def xmlNameInfo (tag : Bytes) : Except TErr FInfo :=
  match parseTag tag true with
  | .error e => .error e
  | .ok (ns, t, m, o) => .ok ⟨(splitPrefixed t).1, (splitPrefixed t).2, ns, m, o, 1, none⟩

/-- The `XMLName` field among the fields of a struct. -/
def findXmlName (ds : List Decl) : Option Decl := ds.find? fun d => d.name == xmlNameField

/-- `lookupXMLName` (`/repo/xml/typeinfo.go` 290-314). -/
def lookupXMLName : Typ → Option FInfo
  | .ptr t => lookupXMLName t
  | .struct _ ds _ =>
    match findXmlName ds with
    | none => none
    | some d =>
      match xmlNameInfo d.tag with
      | .ok fi => if fi.loc ≠ [] then some fi else none
      | .error _ => none
  | _ => none

/-- `structFieldInfo` for any other field (`/repo/xml/typeinfo.go` 170-288). -/
def structFieldInfo (d : Decl) (t : Typ) : Except TErr FInfo :=
  match parseTag d.tag false with
  | .error e => .error e
  | .ok (ns, tag, m, o) =>
    if tag = [] then
      match lookupXMLName t with
      | some xn => .ok ⟨xn.pre, xn.loc, xn.xmlns, m, o, 1, none⟩
      | none => .ok ⟨[], d.name, ns, m, o, 1, none⟩
    else if ch%'>' ∈ tag then .error .notModelled
    else
      let sp := splitPrefixed tag
      let fi : FInfo := ⟨sp.1, sp.2, ns, m, o, 1, none⟩
      if m = .elem then
        match lookupXMLName t with
        | some xn => if xn.loc ≠ fi.loc then .error .nameConflict else .ok fi
        | none => .ok fi
      else .ok fi

/-- A conflict of two fields without `>` paths (`/repo/xml/typeinfo.go` 323-388). -/
def conflict (new old : FInfo) : Bool := old.mode == new.mode && new.loc == old.loc && new.xmlns == old.xmlns

/-- `addFieldInfo` (`/repo/xml/typeinfo.go` 323-388). -/
def addField (acc : List (FInfo × Sch)) (new : FInfo) (s : Sch) : Except TErr (List (FInfo × Sch)) :=
  let cs := acc.filter fun o => conflict new o.1
  if cs.isEmpty then .ok (acc ++ [(new, s)])
  else if cs.any fun o => o.1.depth < new.depth then .ok acc
  else if cs.any fun o => o.1.depth == new.depth then .error .tagPath
  else .ok ((acc.filter fun o => !conflict new o.1) ++ [(new, s)])

/-- Adds the fields of an embedded struct (`/repo/xml/typeinfo.go` 118-128); `grp` is set for an embedded pointer. -/
def addFields (grp : Option Nat) : List FInfo → List Sch → List (FInfo × Sch) → Except TErr (List (FInfo × Sch))
  | fi :: fis, s :: ss, acc =>
    if fi.grp ≠ none then .error .notModelled
    else
      match addField acc { fi with depth := fi.depth + 1, grp := grp } s with
      | .error e => .error e
      | .ok acc' => addFields grp fis ss acc'
  | _, _, acc => .ok acc

/-- The result of `structFieldInfo` for a field added to the fields before it (`/repo/xml/typeinfo.go` 131-142). -/
def addOwn (d : Decl) (t : Typ) (s : Sch) (xn : Option FInfo) (acc : List (FInfo × Sch)) :
    Except TErr (Option FInfo × List (FInfo × Sch)) :=
  if d.name = xmlNameField then
    match xmlNameInfo d.tag with
    | .error e => .error e
    | .ok fi => .ok (some fi, acc)
  else
    match structFieldInfo d t with
    | .error e => .error e
    | .ok fi =>
      match addField acc fi s with
      | .error e => .error e
      | .ok acc' => .ok (xn, acc')

/-- One field that is not skipped (`/repo/xml/typeinfo.go` 107-142); `s` describes its type. -/
def addDecl (i : Nat) (d : Decl) (t : Typ) (s : Sch) (xn : Option FInfo) (acc : List (FInfo × Sch)) :
    Except TErr (Option FInfo × List (FInfo × Sch)) :=
  if d.embedded then
    match s with
    | .struct _ ixn fis ss =>
      if ixn.isSome then .error .notModelled
      else
        match addFields none fis ss acc with
        | .error e => .error e
        | .ok acc' => .ok (xn, acc')
    | .ptr (.struct _ ixn fis ss) =>
      if ixn.isSome then .error .notModelled
      else
        match addFields (some i) fis ss acc with
        | .error e => .error e
        | .ok acc' => .ok (xn, acc')
    | .bad e => .error e
    | .ptr (.bad e) => .error e
    | _ => addOwn d t s xn acc
  else addOwn d t s xn acc

mutual
/-- `getTypeInfo` (`/repo/xml/typeinfo.go` 94-165) for a type and all types in it. -/
def Typ.sch : Typ → Sch
  | .simple k => .simple k
  | .ptr t => .ptr t.sch
  | .slice t => .slice t.sch
  | .name => .name
  | .attr => .attr
  | .hidden => .bad .notModelled
  | .struct n ds ts =>
    match structInfo 0 ds ts none [] with
    | .error e => .bad e
    | .ok (xn, fs) => .struct n xn (fs.map (·.1)) (fs.map (·.2))
/-- The loop over the fields of a struct (`/repo/xml/typeinfo.go` 101-143), from field number `i` on. -/
def structInfo : Nat → List Decl → List Typ → Option FInfo → List (FInfo × Sch) →
    Except TErr (Option FInfo × List (FInfo × Sch))
  | i, d :: ds, t :: ts, xn, acc =>
    if (!d.exported && !d.embedded) || d.tag == b!"-" then structInfo (i + 1) ds ts xn acc
    else
      match addDecl i d t t.sch xn acc with
      | .error e => .error e
      | .ok (xn', acc') => structInfo (i + 1) ds ts xn' acc'
  | _, _, [], xn, acc => .ok (xn, acc)
  | _, [], _ :: _, xn, acc => .ok (xn, acc)
end

/-- Go values.  Floating-point numbers are represented by their bit pattern.  A nil slice and an empty slice are not
distinguished. -/
inductive Val where
  | str (b : Bytes)
  | bool (b : Bool)
  | int (i : Int)
  | uint (n : Nat)
  | float (bits : Nat)
  | ptr (v : Option Val)
  | slice (l : List Val)
  | name (n : Name)
  | attr (a : Attr)
  | struct (xmlname : Name) (fields : List Val)
  | absent
  deriving Repr

/-- The zero value of a simple kind. -/
def Kind.zero : Kind → Val
  | .str => .str []
  | .bool => .bool false
  | .int _ => .int 0
  | .uint _ => .uint 0
  | .float _ => .float 0
  | .duration => .int 0
  | .floatInf => .float 0

mutual
/-- `reflect.Zero`. -/
def Sch.zero : Sch → Val
  | .simple k => k.zero
  | .ptr _ => .ptr none
  | .slice _ => .slice []
  | .name => .name ⟨[], []⟩
  | .attr => .attr ⟨⟨[], []⟩, []⟩
  | .struct _ _ infos subs => .struct ⟨[], []⟩ (zeros infos subs)
  | .bad _ => .absent
/-- The zero values of fields; those behind an embedded pointer are absent. -/
def zeros : List FInfo → List Sch → List Val
  | fi :: fis, s :: ss => (if fi.grp = none then s.zero else .absent) :: zeros fis ss
  | _, _ => []
end

end Verif.Bind
