import Verif.XmlToken

/-!
A decoder over a stream of tokens (`NewTokenDecoder`, `/repo/xml/xml.go` 258-272), used to put a filter between a decoder and its
user: the tokens that come out of one decoder are handed to a second one, which translates and matches them once more.
-/
namespace Verif.Piped

open Verif.Xml

/-- What one call of `Token` of a `TokenReader` returns (`/repo/xml/xml.go` 132-147): a token, which may be `nil`, and an error,
which may be `nil`. -/
structure Reply where
  tok : Option Token
  err : Option XErr
  deriving DecidableEq, Repr

/-- The error `Token` returns for an error of `rawToken` (`/repo/xml/xml.go` 310-315). -/
def rawErr (e : XErr) (stk : List Stk) : XErr := if e = .eof ∧ stk ≠ [] then unexpectedEOF else e

/-- The results of `Token` (`/repo/xml/xml.go` 300-369) of a decoder made by `NewTokenDecoder` up to the first error, and that error. `rawToken`
(`/repo/xml/xml.go` 588-591) hands on what the reader returns: an error that comes with a token is dropped, a reply without
token and without error comes out as it is. After `l` the reader returns the error `fin` for ever. The decoder is strict, not inside
`UnmarshalXML`, and `DefaultSpace` is empty. -/
def run : List Reply → XErr → NsMap → List Stk → List (Option Token) × XErr
  | [], fin, _, stk => ([], rawErr fin stk)
  | ⟨none, some e⟩ :: _, _, _, stk => ([], rawErr e stk)
  | ⟨none, none⟩ :: l, fin, ns, stk => (none :: (run l fin ns stk).1, (run l fin ns stk).2)
  | ⟨some t, _⟩ :: l, fin, ns, stk =>
    match cook t ns stk with
    | .error e => ([], e)
    | .ok (t', ns', stk') => (some t' :: (run l fin ns' stk').1, (run l fin ns' stk').2)

/-- `NewTokenDecoder` (`/repo/xml/xml.go` 258-272) for a reader that is not itself a decoder. -/
def newTokenDecoder (l : List Reply) (fin : XErr) : List (Option Token) × XErr := run l fin (fun _ => none) []

end Verif.Piped
