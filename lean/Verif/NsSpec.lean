import Verif.RoundTrip

/-!
When the elements written for a value keep their names: conditions on the value (`NsOk`) and on the type (`Sch.nsRt`).
-/
namespace Verif.Bind

open Verif.Xml

/-- Pairs of a prefix and a namespace. -/
abbrev Pairs := List (Bytes × Bytes)

/-- A prefix and a namespace that it may be bound to. -/
def pairOk (x : Bytes × Bytes) : Bool :=
  decide (NCName x.1) && !startsXml x.1 && x.2 != [] && x.2 != xmlURL && x.2 != xmlnsURL && clean x.2 == x.2

/-- A prefix stands for one namespace and a namespace has one prefix. -/
def pairsOk (P : Pairs) : Bool :=
  P.all fun x => pairOk x && P.all fun y => (x.1 == y.1) == (x.2 == y.2)

/-- An `XMLName` field without a name in its tag. -/
def tagless (xn : Option FInfo) : Bool :=
  match xn with
  | none => false
  | some x => x.loc == []

/-! ### Values -/

/-- The pair that an attribute declares. -/
def declOf (a : Attr) : Pairs := if a.name.space = xmlnsURL then [(a.name.loc, a.value)] else []

/-- An attribute in an `any,attr` field of an element `n`: it has no namespace; or it declares the default namespace as the
namespace of the element; or it declares a pair of `X`; or its namespace is one of `X`, with the prefix that is made up for
it or a prefix that is declared, in `D`. -/
def AnyNs (X D : Pairs) (n : Name) (a : Attr) : Prop :=
  (a.name.space = [] ∧ (a.name.loc = xmlnsPrefix → a.value = n.space ∧ n.space ≠ [] ∧ (splitPrefixed n.loc).1 = [])) ∨
  (a.name.space = xmlnsURL ∧ (a.name.loc, a.value) ∈ X) ∨
  (a.name.space ≠ xmlnsURL ∧ ∃ p, (p, a.name.space) ∈ X ∧ (p = genPrefix a.name.space ∨ (p, a.name.space) ∈ D))

/-- The same for the attributes in a list, of which each can use what is declared before it. -/
def AnyNss (X D : Pairs) (n : Name) : List Attr → Prop
  | [] => True
  | a :: l => AnyNs X D n a ∧ AnyNss X (declOf a ++ D) n l

/-- What is declared in the `any,attr` fields of a struct. -/
def anyDecls : List FInfo → List Val → Pairs
  | f :: fs, .slice l :: vs => (if f.mode = .anyAttr then (attrsIn l).flatMap declOf else []) ++ anyDecls fs vs
  | _ :: fs, _ :: vs => anyDecls fs vs
  | _, _ => []

/-- A namespace of an element. -/
def SpaceOk (u : Bytes) : Prop := u ≠ [] → u ≠ xmlURL ∧ u ≠ xmlnsURL ∧ clean u = u

mutual
/-- Namespaces in a value are used such that they can be written.  `ns` is the namespace of the enclosing element, `D` has the
prefixes declared in `any,attr` fields of enclosing elements.  An element whose namespace is taken from its `XMLName` has the namespace of the enclosing element, if that has one. -/
def NsOk (X D : Pairs) (ns : Bytes) (fi : Option FInfo) : Sch → Val → Prop
  | .ptr s, .ptr (some v) => NsOk X D ns fi s v
  | .slice s, .slice l => ∀ v ∈ l, NsOk X D ns fi s v
  | .struct tn xn infos subs, .struct xv vs =>
    (tagless xn = true → (ns = [] ∨ (startName xn xv fi tn).space = ns) ∧ SpaceOk (startName xn xv fi tn).space) ∧
    (∀ (i : Nat) (f : FInfo) (l : List Val), infos[i]? = some f → f.mode = .anyAttr → vs[i]? = some (.slice l) →
      AnyNss X D (startName xn xv fi tn) (attrsIn l)) ∧
    NsOks X (anyDecls infos vs ++ D) (startName xn xv fi tn).space infos subs vs
  | _, _ => True
/-- The same for all fields. -/
def NsOks (X D : Pairs) (ns : Bytes) : List FInfo → List Sch → List Val → Prop
  | fi :: fis, s :: ss, v :: vs => NsOk X D ns (some fi) s v ∧ NsOks X D ns fis ss vs
  | _, _, _ => True
end

/-! ### Types -/

/-- The pair in a tag. -/
def tagPair (f : FInfo) : Pairs := if f.xmlns = [] then [] else [(f.pre, f.xmlns)]

/-- The pairs in the tags of attribute fields. -/
def attrPairs (infos : List FInfo) : Pairs := (infos.filter fun f => f.mode == .attr).flatMap tagPair

/-- The tag of an element: a namespace has a prefix, and only then. -/
def elemTag (f : FInfo) : Bool := f.loc != xmlnsPrefix && (f.xmlns == []) == (f.pre == [])

/-- The tag of an attribute: a namespace has a prefix; `xmlns` is a string. -/
def attrTag (f : FInfo) (s : Sch) : Bool :=
  f.mode != .attr || ((f.xmlns == [] || f.pre != []) && (f.loc != xmlnsPrefix || f.xmlns != [] || (f.pre == [] &&
    match s with
    | .simple .str => true
    | _ => false)))

/-- The pairs used in the start tag of a struct whose `XMLName` has a name in its tag, if any. -/
def startPairs (fi xn : Option FInfo) : Pairs :=
  match xn with
  | some _ => []
  | none => match fi with
    | none => []
    | some f => tagPair f

mutual
/-- The types for which it is proved that names are kept.  `A` contains all pairs in tags, `T` those in use in the enclosing
elements; `sc` says that the enclosing element has a namespace from its `XMLName`. -/
def Sch.nsRt (A : Pairs) (T : Pairs) (fi : Option FInfo) (sc : Bool) : Sch → Bool
  | .simple _ =>
    match fi with
    | none => false
    | some f => elemTag f && pairsOk (T ++ tagPair f) && (T ++ tagPair f).all fun x => decide (x ∈ A)
  | .ptr s => s.nsRt A T fi sc
  | .slice s => s.nsRt A T fi sc
  | .struct _ xn infos subs =>
    if tagless xn then
      fi.isSome && (match fi with
        | none => false
        | some f => elemTag f && f.xmlns == []) &&
      pairsOk T && T.all (fun x => decide (x ∈ A)) &&
      infos.all (fun f => f.mode != .attr || (f.xmlns == [] && f.loc != xmlnsPrefix)) &&
      nsRts A T true infos subs
    else
      !sc && (match xn with
        | some x => x.xmlns == [] && x.pre == [] && x.loc != xmlnsPrefix && decide (NCName x.loc)
        | none => match fi with
          | none => false
          | some f => elemTag f) &&
      (infos.zip subs).all (fun p => attrTag p.1 p.2) &&
      pairsOk (T ++ startPairs fi xn ++ attrPairs infos) &&
      (T ++ startPairs fi xn ++ attrPairs infos).all (fun x => decide (x ∈ A)) &&
      nsRts A (T ++ startPairs fi xn ++ attrPairs infos) false infos subs
  | .attr => true
  | _ => false
/-- The same for the element fields. -/
def nsRts (A : Pairs) (T : Pairs) (sc : Bool) : List FInfo → List Sch → Bool
  | f :: fis, s :: ss => (f.mode != .elem || s.nsRt A T (some f) sc) && nsRts A T sc fis ss
  | _, _ => true
end

/-- All pairs in the tags of a type. -/
def tagPairs (s : Sch) : Pairs :=
  ((structs s).flatMap fun q => (q.2.2.1.filter fun f => f.mode == .attr || f.mode == .elem).flatMap tagPair).eraseDups

/-- Pairs that can be used besides those in tags, in types with attributes `L`: prefix and namespace correspond, and a prefix
is not the name of an attribute. -/
def extOk (A X : Pairs) (L : List Bytes) : Bool :=
  pairsOk X && X.all fun x => decide (x.1 ∉ L) && A.all fun y => (x.1 == y.1) == (x.2 == y.2)

/-- The pairs in the tags of the manifest. -/
def mpdPairs : Pairs := tagPairs tMPD.sch

theorem mpd_ns : tMPD.sch.nsRt mpdPairs [] none false = true := by decide +kernel

/-- No prefix in a tag is the name of an attribute. -/
theorem mpd_pairs : (mpdPairs.all fun x => decide (x.1 ∉ mpdLocs)) = true := by decide +kernel

end Verif.Bind
