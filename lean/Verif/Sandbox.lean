import Verif.XmlToken
import Verif.KRfl

/-!
Types with their own `UnmarshalXML`: `pushEOF`, `popEOF` and `unmarshalInterface`.  The method is any program that calls `Token`, and
`DecodeElement` on other such values.  Properties in `SandboxProps`.
-/
namespace Verif.Sandbox

open Verif.Xml

/-! ### Model -/

/-- An entry of the stack (`/repo/xml/xml.go` 416-427): an open element, a namespace declaration with the old value, or the mark of `pushEOF`. -/
inductive Ent where
  | start (n : Name)
  | ns (k : Bytes) (old : Option Bytes)
  | eof
  deriving DecidableEq

/-- A decoder in strict mode.  `inp` are the raw tokens that `rawToken` returns one after the other, `fin` is its error after them; `err` is
`d.err`. -/
structure S where
  stk : List Ent
  ns : NsMap
  inp : List Token
  fin : XErr
  err : Option XErr

/-- The loop of `Token` that records namespace declarations (`/repo/xml/xml.go` 330-351): the error, if there is one, and the state it
leaves. -/
def pushNs : List Attr → NsMap → List Ent → Option XErr × NsMap × List Ent
  | [], ns, stk => (none, ns, stk)
  | a :: l, ns, stk =>
    if a.name.space = xmlnsPrefix then
      if a.value = [] then (some (.syntaxError "empty namespace without prefix"), ns, stk)
      else if a.name.loc = [] then (some (.syntaxError "empty prefix"), ns, stk)
      else pushNs l (ns.set a.name.loc (some a.value)) (.ns a.name.loc (ns a.name.loc) :: stk)
    else if a.name.space = [] ∧ a.name.loc = xmlnsPrefix then
      pushNs l (ns.set [] (some a.value)) (.ns [] (ns []) :: stk)
    else pushNs l ns stk

/-- The undo loop of `popElement` (`/repo/xml/xml.go` 541-550). -/
def popNs : NsMap → List Ent → NsMap × List Ent
  | ns, .ns k old :: stk => popNs (ns.set k old) stk
  | ns, stk => (ns, stk)

/-- `Token` with a raw token (`/repo/xml/xml.go` 319-368, 515-553).  `popElement` takes the entry from the stack before it looks at it. -/
def cooked (s : S) (t : Token) : Except XErr Token × S :=
  match t with
  | .startElement n as =>
    match pushNs as s.ns s.stk with
    | (some e, ns, stk) => (.error e, { s with ns := ns, stk := stk, err := some e })
    | (none, ns, stk) =>
      (.ok (.startElement (translate ns n true) (as.map fun a => ⟨translate ns a.name false, a.value⟩)), { s with ns := ns, stk := .start n :: stk })
  | .endElement n =>
    match s.stk with
    | .start m :: stk =>
      if m.loc ≠ n.loc then
        (.error (.syntaxError "element closed by another"), { s with stk := stk, err := some (.syntaxError "element closed by another") })
      else if m.space ≠ n.space then
        (.error (.syntaxError "element closed by the same in another namespace"),
          { s with stk := stk, err := some (.syntaxError "element closed by the same in another namespace") })
      else (.ok (.endElement (translate s.ns n true)), { s with ns := (popNs s.ns stk).1, stk := (popNs s.ns stk).2 })
    | stk => (.error (.syntaxError "unexpected end element"), { s with stk := stk.tail, err := some (.syntaxError "unexpected end element") })
  | t => (.ok t, s)

/-- The error that `Token` returns for one of `rawToken` (`/repo/xml/xml.go` 311-313). -/
def rawErr (s : S) (e : XErr) : XErr := if e = .eof ∧ s.stk ≠ [] then unexpectedEOF else e

/-- `Token` (`/repo/xml/xml.go` 300-369). -/
def tok (s : S) : Except XErr Token × S :=
  match s.stk with
  | .eof :: _ => (.error .eof, s)
  | _ =>
    match s.err with
    | some e => (.error (rawErr s e), s)
    | none =>
      match s.inp with
      | [] => (.error (rawErr s s.fin), { s with err := some s.fin })
      | t :: r => cooked { s with inp := r } t

/-- The second loop of `pushEOF` and the insertion (`/repo/xml/xml.go` 464-477). -/
def afterNs : List Ent → List Ent
  | .ns k o :: l => .ns k o :: afterNs l
  | l => .eof :: l

/-- `pushEOF` (`/repo/xml/xml.go` 455-477); `none` is a panic: the first loop runs off the end of the stack. -/
def pushEOF : List Ent → Option (List Ent)
  | .start n :: l => some (.start n :: afterNs l)
  | e :: l => (pushEOF l).map (e :: ·)
  | [] => none

/-- A program that uses a decoder: it ends with or without an error, calls `Token`, or calls `DecodeElement` (`/repo/xml/read.go` 151-161) for a value
with an `UnmarshalXML` that is the program `u`, and goes on knowing whether that succeeded.  `Skip`, and `DecodeElement` for other values, are
programs that call `Token`; `RawToken` is refused inside `UnmarshalXML` and changes nothing. -/
inductive User where
  | done (ok : Bool)
  | token (k : Except XErr Token → User)
  | nested (u : User) (k : Bool → User)

/-- `unmarshalInterface` after the method has returned (`/repo/xml/read.go` 216-226, `popEOF` 481-487 in `xml.go`): whether there is no error, and
the decoder. -/
def leave (ok : Bool) (s : S) : Bool × S :=
  match s.stk with
  | .eof :: stk => (ok, { s with stk := stk })
  | _ => (false, s)

/-- A program running; `none` is a panic. -/
def run : User → S → Option (Bool × S)
  | .done b, s => some (b, s)
  | .token k, s => run (k (tok s).1) (tok s).2
  | .nested u k, s =>
    match pushEOF s.stk with
    | none => none
    | some stk =>
      match run u { s with stk := stk } with
      | none => none
      | some (b, s') => run (k (leave b s').1) (leave b s').2

/-- `unmarshalInterface` (`/repo/xml/read.go` 210-227) with the method `u`. -/
def unmarshalInterface (u : User) (s : S) : Option (Bool × S) :=
  match pushEOF s.stk with
  | none => none
  | some stk => (run u { s with stk := stk }).map fun x => leave x.1 x.2

/-! ### Specification -/

/-- The content of an element: everything that is opened is closed. -/
inductive Content : List Token → Prop where
  | nil : Content []
  | misc (t l) : (∀ n as, t ≠ .startElement n as) → (∀ n, t ≠ .endElement n) → Content l → Content (t :: l)
  | elem (n as b l) : Content b → Content l → Content (.startElement n as :: (b ++ .endElement n :: l))

/-- A program that calls `DecodeElement` only while its element is not finished and no error has been met, and that fails if `DecodeElement`
fails. -/
def Orderly : User → S → Prop
  | .done _, _ => True
  | .token k, s => Orderly (k (tok s).1) (tok s).2
  | .nested u k, s => s.err = none ∧ (∀ l, s.stk ≠ .eof :: l) ∧ k false = .done false ∧
    ∀ stk, pushEOF s.stk = some stk → Orderly u { s with stk := stk } ∧
      ∀ b s', run u { s with stk := stk } = some (b, s') → (leave b s').1 = true → Orderly (k true) (leave b s').2

end Verif.Sandbox
