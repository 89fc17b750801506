import Verif.XmlToken
import Mathlib.Data.List.Basic
import Mathlib.Data.List.Infix

/-!
C72: fields with paths in their tags (`xml:"a>b>c"`): the check of paths in `addFieldInfo`, writing with `parentStack` and reading
with `unmarshalPath`.  No type of package `mpd` has such tags; package `xml` is exported.
-/
namespace Verif.Paths

open Verif Verif.Xml

/-! ### Elements -/

/-- An element with its text and the elements in it. -/
inductive Tree
  | node (name : Name) (text : Bytes) (kids : List Tree)

def Tree.name : Tree → Name
  | .node n _ _ => n

def Tree.kids : Tree → List Tree
  | .node _ _ k => k

/-- Start tag with the text after it, and end tag. -/
inductive Tok
  | start (n : Name) (text : Bytes)
  | stop (n : Name)
  deriving DecidableEq

mutual
/-- The tags of an element. -/
def flat : Tree → List Tok
  | .node n x k => .start n x :: (flats k ++ [.stop n])
/-- The tags of several elements. -/
def flats : List Tree → List Tok
  | [] => []
  | t :: l => flat t ++ flats l
end

/-! ### The table of fields -/

/-- `fieldInfo` of an element field (`/repo/xml/typeinfo.go` 30-37): namespace, name, parents, and the depth of embedding
(`len(idx)`).  Only fields of mode `fElement` are considered; prefixes play no role for paths. -/
structure Field where
  xmlns : Bytes
  name : Bytes
  parents : List Bytes
  depth : Nat
  deriving DecidableEq

/-- The first loop over parents in `addFieldInfo` (`/repo/xml/typeinfo.go` 335-340): equal as far as both go. -/
def agree : List Bytes → List Bytes → Bool
  | a :: l, b :: m => a == b && agree l m
  | _, _ => true

/-- The condition for a conflict in `addFieldInfo` (`/repo/xml/typeinfo.go` 327-354). -/
def conflict (o n : Field) : Bool :=
  if o.xmlns ≠ [] ∧ n.xmlns ≠ [] ∧ o.xmlns ≠ n.xmlns then false
  else if !agree o.parents n.parents then false
  else if o.parents.length > n.parents.length then o.parents[n.parents.length]? == some n.name
  else if o.parents.length < n.parents.length then n.parents[o.parents.length]? == some o.name
  else n.name == o.name && n.xmlns == o.xmlns

/-- `addFieldInfo` (`/repo/xml/typeinfo.go` 323-388); `none` is `TagPathError`. -/
def addFieldInfo (fs : List Field) (n : Field) : Option (List Field) :=
  let cs := fs.filter fun o => conflict o n
  if cs.isEmpty then some (fs ++ [n])
  else if cs.any fun o => o.depth < n.depth then some fs
  else if cs.any fun o => o.depth == n.depth then none
  else some ((fs.filter fun o => !conflict o n) ++ [n])

/-- The fields of a type, one after the other (`/repo/xml/typeinfo.go` 97-160, without embedding; the fields of embedded structs come with their
depth). -/
def table : List Field → List Field → Option (List Field)
  | fs, [] => some fs
  | fs, n :: l =>
    match addFieldInfo fs n with
    | some fs => table fs l
    | none => none

/-! ### Writing -/

/-- The value of a field: whether it is a nil pointer or interface, and the elements that `marshalValue` writes for it. -/
structure FVal where
  isNil : Bool
  elems : List Tree

/-- The printer and the `parentStack` (`/repo/xml/marshal.go` 1244-1247). -/
structure St where
  out : List Tok
  stack : List Bytes

/-- The length of the common prefix (`/repo/xml/marshal.go` 1253-1258). -/
def common : List Bytes → List Bytes → Nat
  | a :: l, b :: m => if a = b then common l m + 1 else 0
  | _, _ => 0

/-- A parent is written without a namespace. -/
def pname (n : Bytes) : Name := ⟨[], n⟩

/-- `parentStack.trim` (`/repo/xml/marshal.go` 1252-1266).  `writeEnd` succeeds, since the elements were opened by `push`. -/
def trim (st : St) (parents : List Bytes) : St :=
  let split := common parents st.stack
  ⟨st.out ++ (st.stack.drop split).reverse.map (fun n => .stop (pname n)), st.stack.take split⟩

/-- `parentStack.push` (`/repo/xml/marshal.go` 1269-1277). -/
def push (st : St) (parents : List Bytes) : St :=
  ⟨st.out ++ parents.map (fun n => .start (pname n) []), st.stack ++ parents⟩

/-- The iteration of `marshalStruct` for an element field (`/repo/xml/marshal.go` 1137-1151). -/
def writeField (st : St) (f : Field) (v : FVal) : St :=
  let st := trim st f.parents
  let st := if f.parents.length > st.stack.length ∧ v.isNil = false then push st (f.parents.drop st.stack.length) else st
  ⟨st.out ++ flats v.elems, st.stack⟩

/-- `marshalStruct` (`/repo/xml/marshal.go` 1002-1155) for element fields.  Indentation and namespace declarations are left out: names are those that are read. -/
def writeFields : St → List (Field × FVal) → List Tok
  | st, [] => (trim st []).out
  | st, (f, v) :: l => writeFields (writeField st f v) l

/-! ### Reading -/

/-- What the loop over fields finds. -/
inductive Step
  | hit (i : Nat)
  | down (parents : List Bytes)
  deriving DecidableEq

/-- The loop over the fields in `unmarshalPath` (`/repo/xml/read.go` 705-736); `i` is the index of the first field of the list. -/
def step (parents : List Bytes) (n : Name) : Nat → List Field → Option Step
  | _, [] => none
  | i, f :: fs =>
    if f.parents.length < parents.length ∨ (f.xmlns ≠ [] ∧ f.xmlns ≠ n.space) then step parents n (i + 1) fs
    else if f.parents.take parents.length ≠ parents then step parents n (i + 1) fs
    else if f.parents.length = parents.length ∧ f.name = n.loc then some (.hit i)
    else if f.parents[parents.length]? = some n.loc then some (.down (f.parents.take (parents.length + 1)))
    else step parents n (i + 1) fs

mutual
/-- `unmarshalPath` (`/repo/xml/read.go` 704-763): the elements that are unmarshalled, with the indices of their fields; elements that are not
consumed are skipped by the caller (lines 564-568 and 754-758).  The content is taken as a tree; text and comments in it are passed
over. -/
def unmarshalPath (fs : List Field) (parents : List Bytes) : Tree → List (Nat × Tree)
  | .node n x k =>
    match step parents n 0 fs with
    | none => []
    | some (.hit i) => [(i, .node n x k)]
    | some (.down ps) => unmarshalPaths fs ps k
/-- The loop over the content of an element. -/
def unmarshalPaths (fs : List Field) (parents : List Bytes) : List Tree → List (Nat × Tree)
  | [] => []
  | t :: l => unmarshalPath fs parents t ++ unmarshalPaths fs parents l
end

/-- What the `i`-th field gets from the content of the element. -/
def got (fs : List Field) (F : List Tree) (i : Nat) : List Tree :=
  (unmarshalPaths fs [] F).filterMap fun p => if p.1 = i then some p.2 else none

/-! ### Specification -/

/-- The path of a field. -/
def Field.path (f : Field) : List Bytes := f.parents ++ [f.name]

/-- The elements at a path, in document order. -/
def elemsAt : List Bytes → List Tree → List Tree
  | [], _ => []
  | [n], F => F.filter fun t => t.name.loc = n
  | n :: p, F => (F.filter fun t => t.name.loc = n).flatMap fun t => elemsAt p t.kids

/-- No path begins with another one. -/
def Apart (fs : List Field) : Prop := fs.Pairwise fun f g => ¬ f.path <+: g.path ∧ ¬ g.path <+: f.path

end Verif.Paths
