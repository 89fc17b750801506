import Verif.Updates
import Verif.Leaf
import Verif.Sees
import Verif.SchemaProps

/-!
What it means that a value survives writing and reading (`Back`), the values for which it is claimed (`Canon`), and the
types for which it is proved (`Sch.rt`).
-/
namespace Verif.Bind

open Verif.Xml

/-- A namespace declaration. -/
def IsDecl (a : Attr) : Prop := a.name.space = xmlnsURL ∨ a.name = ⟨[], xmlnsPrefix⟩

/-- The second list is the first with members of `E` inserted. -/
inductive Ins (E : Attr → Prop) : List Attr → List Attr → Prop
  | nil : Ins E [] []
  | keep (a : Attr) {l m : List Attr} : Ins E l m → Ins E (a :: l) (a :: m)
  | ins {e : Attr} {l m : List Attr} : E e → Ins E l m → Ins E l (e :: m)

/-- The type of a member of an `any,attr` list. -/
def Sch.isAttr : Sch → Bool
  | .attr => true
  | _ => false

/-- The attributes in a list of values. -/
def attrsIn (l : List Val) : List Attr := l.filterMap fun v =>
  match v with
  | .attr a => some a
  | _ => none

/-- What is kept of an `XMLName` field: with a name in its tag, the local name; without, the whole name, if it was set with a
namespace. -/
def NameBack (xn : Option FInfo) (v w : Name) : Prop :=
  ∀ x, xn = some x → (x.loc ≠ [] → w.loc = x.loc) ∧ (x.loc = [] → v.loc ≠ [] → v.space ≠ [] → w = v)

mutual
/-- `w` is what is left of `v` after writing and reading: the same, except that durations are rounded to milliseconds
(`SameDur`), that a negative floating-point zero may have become zero, that an `XMLName` field is kept as far as it was used, and that attributes of an
`any,attr` field may have namespace declarations among them. -/
def Back : Sch → Val → Val → Prop
  | .simple k, v, w => SameLeaf k v w
  | .ptr _, .ptr none, .ptr none => True
  | .ptr s, .ptr (some v), .ptr (some w) => Back s v w
  | .slice s, .slice l, .slice m =>
    if s.isAttr then Ins IsDecl (attrsIn l) (attrsIn m) else List.Forall₂ (Back s) l m
  | .struct _ xn _ subs, .struct xv vs, .struct xw ws => NameBack xn xv xw ∧ Backs subs vs ws
  | _, _, _ => False
/-- The same for all fields. -/
def Backs : List Sch → List Val → List Val → Prop
  | [], [], [] => True
  | s :: ss, v :: vs, w :: ws => Back s v w ∧ Backs ss vs ws
  | _, _, _ => False
end

/-- The element written for a struct is one that the field it is in accepts, and its type as well. -/
def NameOk (fi xn : Option FInfo) (n : Name) : Prop :=
  (∀ x, xn = some x → x.xmlns = [] ∧ (x.loc = [] ∨ x.loc = (splitPrefixed n.loc).2) ∧
    (x.loc = [] → (splitPrefixed n.loc).1 = [])) ∧
  ∀ f, fi = some f → (splitPrefixed n.loc).2 = f.loc ∧ (f.xmlns = [] ∨ n.space = f.xmlns)

/-- A nil pointer or an empty list. -/
def Val.isNil : Val → Bool
  | .ptr none => true
  | .slice [] => true
  | _ => false

/-- Some element field is set. -/
def hasElems (infos : List FInfo) (vs : List Val) : Bool := (infos.zip vs).any fun p => p.1.mode == .elem && !p.2.isNil

/-- The second text is the first one with white space before and after. -/
def SameText (v w : Val) : Prop := ∃ a p q, v = .str a ∧ w = .str (p ++ a ++ q) ∧ IsWs p ∧ IsWs q

mutual
/-- The same values, except that where character data is together with elements, it may be surrounded by white space in the
second. -/
def Loose : Sch → Val → Val → Prop
  | .ptr s, .ptr (some v), .ptr (some w) => Loose s v w
  | .slice s, .slice l, .slice m => List.Forall₂ (Loose s) l m
  | .struct _ _ infos subs, .struct xv vs, .struct xw ws => xv = xw ∧ Looses (hasElems infos vs) infos subs vs ws
  | _, v, w => v = w
/-- The same for all fields; `mix` says that there are elements. -/
def Looses (mix : Bool) : List FInfo → List Sch → List Val → List Val → Prop
  | fi :: fis, s :: ss, v :: vs, w :: ws =>
    (Loose s v w ∨ (mix = true ∧ fi.mode = .chardata ∧ SameText v w)) ∧ Looses mix fis ss vs ws
  | [], [], [], [] => True
  | _, _, _, _ => False
end

mutual
/-- Nowhere is character data together with elements. -/
def NoMix : Sch → Val → Prop
  | .ptr s, .ptr (some v) => NoMix s v
  | .slice s, .slice l => ∀ v ∈ l, NoMix s v
  | .struct _ _ infos subs, .struct _ vs =>
    (modeField infos .chardata ≠ none → hasElems infos vs = false) ∧ NoMixes subs vs
  | _, _ => True
/-- The same for all fields. -/
def NoMixes : List Sch → List Val → Prop
  | s :: ss, v :: vs => NoMix s v ∧ NoMixes ss vs
  | _, _ => True
end

/-- What is read for a value after writing it with an indentation: `Back` is what is left of it without indentation, and the
indentation only adds white space around character data that is together with elements. -/
def Returned (indent : Bytes) (s : Sch) (v w : Val) : Prop :=
  ∃ u, Back s v u ∧ Loose s u w ∧ (indent = [] ∨ NoMix s v → w = u)

/-- The attributes in an `any,attr` field do not belong to other fields. -/
def AnyOk (infos : List FInfo) (vs : List Val) : Prop :=
  ∀ i fi l, infos[i]? = some fi → fi.mode = .anyAttr → vs[i]? = some (.slice l) →
    ∀ a, .attr a ∈ l → attrField infos a.name = some i

/-- The value of an `innerxml` field is well-formed content. -/
def InnerVal : Val → Prop
  | .str b => Chunk b
  | _ => False

mutual
/-- Values that can be written and read back. -/
def Canon (io : FloatIO) (fi : Option FInfo) : Sch → Val → Prop
  | .simple k, v => LeafOk io k v
  | .ptr _, .ptr none => True
  | .ptr s, .ptr (some v) => v.isNil = false ∧ Canon io fi s v
  | .slice s, .slice l => ∀ v ∈ l, v.isNil = false ∧ Canon io fi s v
  | .attr, .attr a => NCName a.name.loc ∧ clean a.value = a.value
  | .struct tn xn infos subs, .struct xv vs =>
    NameOk fi xn (startName xn xv fi tn) ∧ AnyOk infos vs ∧ Canons io infos subs vs
  | _, _ => False
/-- The same for all fields.  None is behind an embedded pointer that is nil. -/
def Canons (io : FloatIO) : List FInfo → List Sch → List Val → Prop
  | fi :: fis, s :: ss, v :: vs => v.isAbsent = false ∧
    ((fi.mode ≠ .innerxml → Canon io (some fi) s v) ∧ (fi.mode = .innerxml → InnerVal v)) ∧ Canons io fis ss vs
  | [], [], [] => True
  | _, _, _ => False
end

/-! ### Types -/

/-- The types of attribute fields. -/
def attrShape : Sch → Bool
  | .simple _ => true
  | .ptr (.simple _) => true
  | .ptr (.slice (.simple _)) => true
  | _ => false

/-- The types of elements. -/
def oneShape : Sch → Bool
  | .simple k => contentKind k
  | .struct _ _ _ _ => true
  | _ => false

/-- The types of element fields. -/
def elemShape : Sch → Bool
  | .ptr s => oneShape s
  | .slice (.ptr (.struct _ _ _ _)) => true
  | .slice (.struct _ _ _ _) => true
  | s => oneShape s

/-- A name in a tag. -/
def tagOk (fi : FInfo) : Bool :=
  decide (NCName fi.loc) && (fi.pre == [] || decide (NCName fi.pre)) && fi.xmlns != xmlnsURL

/-- The conditions on a field. -/
def fieldRt (fi : FInfo) (s : Sch) : Bool :=
  match fi.mode with
  | .attr => attrShape s && tagOk fi
  | .anyAttr => match s with
    | .slice .attr => true
    | _ => false
  | .elem => elemShape s && tagOk fi
  | .chardata => match s with
    | .simple .str => true
    | _ => false
  | .innerxml => match s with
    | .simple .str => true
    | _ => false

/-- A field that always gives an attribute. -/
def required (fi : FInfo) (s : Sch) : Bool :=
  fi.mode == .attr && !fi.omitE && match s with
    | .simple _ => true
    | _ => false

/-- The conditions on the fields of a struct: they have the shapes above, names are distinct, there is at most one field for
character data, for other attributes and for content as it is, which excludes elements and character data, every embedded pointer has a required attribute behind it, and a field `xmlns` is
only in an element without namespace. -/
def structRt (xn : Option FInfo) (infos : List FInfo) (subs : List Sch) : Bool :=
  infos.length == subs.length && (infos.zip subs).all (fun p => fieldRt p.1 p.2) &&
  decide (infos.Pairwise fun f g => f.mode = g.mode → f.mode = .elem ∨ f.mode = .attr → f.loc ≠ g.loc) &&
  decide (infos.Pairwise fun f g => f.mode = g.mode → f.mode ≠ .chardata ∧ f.mode ≠ .anyAttr ∧ f.mode ≠ .innerxml) &&
  (modeField infos .innerxml == none || infos.all fun f => f.mode != .elem && f.mode != .chardata) &&
  infos.all (fun f => f.grp == none || (infos.zip subs).any fun p => required p.1 p.2 && p.1.grp == f.grp) &&
  (match xn with
    | none => infos.all fun f => !(f.mode == .attr && f.loc == xmlnsPrefix)
    | some x => (x.loc != [] && x.xmlns == []) || infos.all fun f => !(f.mode == .attr && f.loc == xmlnsPrefix))

/-- The names of attribute fields in a type. -/
def attrLocs (s : Sch) : List Bytes :=
  (structs s).flatMap fun q => (q.2.2.1.filter fun f => f.mode == .attr).map (·.loc)

mutual
/-- The types for which the round trip is proved; `L` contains the names of attribute fields. -/
def Sch.rt (L : List Bytes) : Sch → Bool
  | .simple k => (Sch.simple k).ok
  | .ptr s => s.rt L
  | .slice s => s.rt L
  | .struct _ xn infos subs =>
    structRt xn infos subs && infos.all (fun f => f.mode != .attr || decide (f.loc ∈ L)) && rts L subs
  | .attr => true
  | _ => false
/-- The same for several types. -/
def rts (L : List Bytes) : List Sch → Bool
  | [] => true
  | s :: l => s.rt L && rts L l
end

/-- The names of attribute fields in the manifest. -/
def mpdLocs : List Bytes := (attrLocs tMPD.sch).eraseDups

theorem mpd_rt : tMPD.sch.rt mpdLocs = true := by decide +kernel

mutual
/-- The number of levels of elements and lists in a type. -/
def hgt : Sch → Nat
  | .ptr s => hgt s
  | .slice s => hgt s + 1
  | .struct _ _ _ subs => hgts subs + 1
  | _ => 0
/-- The largest number of levels. -/
def hgts : List Sch → Nat
  | [] => 0
  | s :: l => max (hgt s) (hgts l)
end

theorem mpd_hgt : hgt tMPD.sch < maxDepth := by decide +kernel

end Verif.Bind
