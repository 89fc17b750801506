import Verif.EncTok
import Verif.XmlNsProps

/-!
Types with their own `MarshalXML`: `marshalInterface` and the mark it puts on the stack of elements.  The method is any program that calls
`EncodeToken`, and `EncodeElement` on other such values.  Properties in `GuardProps`.
-/
namespace Verif.Guard

open Verif.Xml Verif.EncTok

/-! ### Model -/

/-- What is written in one step: a token, the text of a `TextMarshaler` or of a field (`EscapeText` escapes line ends, the printer does not
always), and bytes written as they are (`innerxml` and such). -/
inductive Op where
  | tok (t : Token)
  | text (nl : Bool) (b : Bytes)
  | raw (b : Bytes)
  deriving DecidableEq, Repr

/-- One step (`EncodeToken`, `/repo/xml/marshal.go` 255-308; `EscapeText`, `Write`): the printer afterwards and the bytes written.  With an
error the printer is as before. -/
def apply (buffered : Bool) (p : Printer) : Op → Except TokErr (Printer × Bytes)
  | .tok t => encodeToken buffered p t
  | .text nl b => .ok (p, escapeText nl b)
  | .raw b => .ok (p, b)

/-- The mark that `marshalInterface` puts on the stack (`/repo/xml/marshal.go` 785). -/
def mark : Elem := ⟨[], [], [], [], []⟩

/-- An encoder with a record of what it was asked to write and did: for each step whether something was buffered, and the step. -/
structure S where
  p : Printer
  out : Bytes
  log : List (Bool × Op)

/-- The encoder with another stack of elements. -/
def S.withEls (s : S) (els : List Elem) : S := { s with p := { s.p with ns := { s.p.ns with els := els } } }

/-- The stack of elements. -/
def S.els (s : S) : List Elem := s.p.ns.els

/-- A program that uses an encoder: it ends with or without an error, writes something, or calls `EncodeElement` (`/repo/xml/marshal.go` 229-235) for a
value with a `MarshalXML` that is the program `u`; it goes on knowing whether that succeeded.  `buffered` is what `Buffered() != 0` is at that time; it
depends on the size of the buffer and on calls of `Flush`, so it is left open.  `EncodeElement` for values without methods, and for a `TextMarshaler`
(`/repo/xml/marshal.go` 801-811), are programs that write start elements, text and end elements.  Not here: `Close` and `Indent` called by the method, and
failing writers. -/
inductive User where
  | done (ok : Bool)
  | op (buffered : Bool) (o : Op) (k : Bool → User)
  | nested (u : User) (k : Bool → User)

/-- `marshalInterface` after the method has returned (`/repo/xml/marshal.go` 788-798), `n` being the number of elements with the mark: whether there is no
error, and the encoder. -/
def leave (n : Nat) (ok : Bool) (s : S) : Bool × S :=
  if ok = false then (false, s)
  else if n < s.els.length then (false, s)
  else (true, s.withEls (s.els.drop (s.els.length - (n - 1))))

/-- A program running: whether it ends without an error, and the encoder afterwards. -/
def run : User → S → Bool × S
  | .done b, s => (b, s)
  | .op buffered o k, s =>
    match apply buffered s.p o with
    | .error _ => run (k false) s
    | .ok (p, b) => run (k true) ⟨p, s.out ++ b, s.log ++ [(buffered, o)]⟩
  | .nested u k, s =>
    let r := run u (s.withEls (mark :: s.els))
    let l := leave (s.els.length + 1) r.1 r.2
    run (k l.1) l.2

/-- `marshalInterface` (`/repo/xml/marshal.go` 782-798) with the method `u`. -/
def marshalInterface (u : User) (s : S) : Bool × S :=
  let r := run u (s.withEls (mark :: s.els))
  leave (s.els.length + 1) r.1 r.2

/-! ### Specification -/

/-- The tokens among the steps. -/
def tokens (l : List (Bool × Op)) : List Token := l.filterMap fun x => match x.2 with
  | .tok t => some t
  | _ => none

/-- A token without the prefixes of element names. -/
def bare : Token → Token
  | .startElement n attrs => .startElement ⟨n.space, (splitPrefixed n.loc).2⟩ attrs
  | .endElement n => .endElement ⟨n.space, (splitPrefixed n.loc).2⟩
  | t => t

/-- The steps one after the other, without methods and marks: the printer afterwards and the bytes written. -/
def writes : Printer → List (Bool × Op) → Except TokErr (Printer × Bytes)
  | p, [] => .ok (p, [])
  | p, (buffered, o) :: l =>
    match apply buffered p o with
    | .error e => .error e
    | .ok (p', b) =>
      match writes p' l with
      | .error e => .error e
      | .ok (p'', b') => .ok (p'', b ++ b')

/-- The printer without marks. -/
def unmarked (p : Printer) : Printer := { p with ns := { p.ns with els := p.ns.els.filter (· ≠ mark) } }

/-- The program goes on after an `EncodeElement` that has failed. -/
def swallows : User → S → Prop
  | .done _, _ => False
  | .op buffered o k, s =>
    match apply buffered s.p o with
    | .error _ => swallows (k false) s
    | .ok (p, b) => swallows (k true) ⟨p, s.out ++ b, s.log ++ [(buffered, o)]⟩
  | .nested u k, s => (marshalInterface u s).1 = false ∨ swallows (k true) (marshalInterface u s).2

end Verif.Guard
