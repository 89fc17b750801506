import Verif.Unmarshal

/-!
Documents as trees, and a reader that works on trees instead of tokens.  It is the specification against which the token
loop of `Verif/Unmarshal.lean` is shown correct (`Verif/TreeProps.lean`); the properties of reading are proved on it.
-/
namespace Verif.Bind

open Verif.Xml

/-- Content of an element: an element with its name, its attributes, the input left before and after its start tag, its
content and its end tag; or a single token that is neither a start tag nor an end tag. -/
inductive XTree where
  | elem (n : Name) (as : List Attr) (before after : Bytes) (kids : List XTree) (en : Name) (eBefore eAfter : Bytes)
  | leaf (t : Token) (before after : Bytes)
  deriving Repr

/-- A token that is neither a start tag nor an end tag. -/
def Token.isLeaf : Token → Bool
  | .startElement _ _ => false
  | .endElement _ => false
  | _ => true

mutual
/-- The tokens of a tree. -/
def XTree.flat : XTree → List PTok
  | .elem n as b a kids en eb ea => ⟨.startElement n as, b, a⟩ :: (flats kids ++ [⟨.endElement en, eb, ea⟩])
  | .leaf t b a => [⟨t, b, a⟩]
/-- The tokens of a list of trees. -/
def flats : List XTree → List PTok
  | [] => []
  | t :: l => t.flat ++ flats l
end

mutual
/-- Every leaf is a token that is neither a start tag nor an end tag. -/
def XTree.Ok : XTree → Prop
  | .elem _ _ _ _ kids _ _ _ => Oks kids
  | .leaf t _ _ => Token.isLeaf t = true
/-- Every tree of a list is well formed. -/
def Oks : List XTree → Prop
  | [] => True
  | t :: l => t.Ok ∧ Oks l
end

/-- The character data of a token. -/
def tokData : Token → Bytes
  | .charData b => b
  | _ => []

/-- The character data directly inside an element. -/
def dataOf : List XTree → Bytes
  | [] => []
  | .leaf t _ _ :: l => tokData t ++ dataOf l
  | .elem .. :: l => dataOf l

/-- Wraps a value in a pointer. -/
def wrapPtr : Except RErr Val → Except RErr Val
  | .ok w => .ok (.ptr (some w))
  | .error e => .error e

/-- Appends a value to a list. -/
def wrapSlice (l : List Val) : Except RErr Val → Except RErr Val
  | .ok w => .ok (.slice (l ++ [w]))
  | .error e => .error e

/-- Goes through the pointers and lists around a value and calls `f` on what is inside.  `top` says that a pointer may be
followed and that the depth is checked. -/
def place (f : Nat → Sch → Val → Except RErr Val) : Bool → Nat → Sch → Val → Except RErr Val
  | true, d, .ptr s, v => if maxDepth ≤ d then .error .depth else wrapPtr (place f false d s (v.deref s))
  | true, d, .slice s, .slice l =>
    if maxDepth ≤ d then .error .depth else wrapSlice l (place f true (d + 1) s s.zero)
  | false, d, .slice s, .slice l => wrapSlice l (place f true (d + 1) s s.zero)
  | true, d, s, v => if maxDepth ≤ d then .error .depth else f d s v
  | false, d, s, v => f d s v

/-- Reads an element with the name `n`, the attributes `as`, the character data `data` and the raw content `inner` into a
simple value or a struct; `rk` reads the elements inside it. -/
def readBody (io : FloatIO) (n : Name) (as : List Attr) (data inner : Bytes)
    (rk : Nat → List FInfo → List Sch → List Val → Except RErr (List Val)) (d : Nat) (s : Sch) (v : Val) :
    Except RErr Val :=
  match s, v with
  | .simple k, _ => copySimple io k data
  | .struct _ xn infos subs, .struct xv vs =>
    match checkName xn n with
    | .error e => .error e
    | .ok () =>
      match readAttrs io infos subs vs as with
      | .error e => .error e
      | .ok vs1 =>
        match rk d infos subs vs1 with
        | .error e => .error e
        | .ok vs2 =>
          match finishStruct io infos subs vs2 data inner with
          | .error e => .error e
          | .ok vs3 => .ok (.struct (if xn.isSome then n else xv) vs3)
  | .bad e, _ => .error (.info e)
  | _, _ => .error .unknownType

mutual
/-- Reads an element into a value. -/
def readT (io : FloatIO) (top : Bool) (d : Nat) (s : Sch) (v : Val) : XTree → Except RErr Val
  | .leaf _ _ _ => .error .unknownType
  | .elem n as _ after kids _ eb _ =>
    place (readBody io n as (dataOf kids) (after.take (after.length - eb.length))
      (fun d infos subs vs => readKids io d infos subs vs kids)) top d s v
/-- Reads the elements inside an element into fields. -/
def readKids (io : FloatIO) (d : Nat) (infos : List FInfo) (subs : List Sch) : List Val → List XTree →
    Except RErr (List Val)
  | vs, [] => .ok vs
  | vs, .leaf _ _ _ :: l => readKids io d infos subs vs l
  | vs, .elem n as b a kids en eb ea :: l =>
    match elemField infos n with
    | none => readKids io d infos subs vs l
    | some i =>
      match updField infos subs vs i (fun s v => readT io true (d + 1) s v (.elem n as b a kids en eb ea)) with
      | .error e => .error e
      | .ok vs' => readKids io d infos subs vs' l
end

/-- Reads a document: the tokens before the root element are ignored. -/
def readRoot (io : FloatIO) (s : Sch) (t : XTree) : Except RErr Val := readT io false 0 s s.zero t

end Verif.Bind
