import Verif.Direct

/-!
A decoder whose reader fails.  In `Verif.Machine` the input ends with `io.EOF`; here the reader returns another error after
the same bytes.  The code sets `d.err` to it in `getc` (`/repo/xml/xml.go` 946-968), where it stays; in three places it looks
whether `d.err` is `io.EOF` before it reports an unexpected end (`mustgetc` 998-1005, `text` 1036-1040, `Token` 311-314).
The programs are those of `Verif.Machine` and `Verif.Direct`; only what an error becomes is different.
-/
namespace Verif.ReadErr

open Verif.Xml Verif.Bind Verif.Machine Verif.Direct

/-- Errors of the decoder: its own, or that of the reader. -/
inductive FErr where
  | dec (e : Machine.MErr)
  | io
  deriving DecidableEq

/-- The errors that the code makes only from `io.EOF` (`/repo/xml/xml.go` 604-606, 998-1005, 1036-1040); where the reader has
failed with another error, that one stays in `d.err` and is returned. -/
def eofOnly (e : XErr) : Bool :=
  e == .eof || e == unexpectedEOF || e == .syntaxError "unexpected EOF in CDATA section"

/-- Running a piece of the decoder with a reader that fails after the input: `D.eof` now says that it has failed. -/
def runF {α : Type} : Prog α → D → Except FErr α × D
  | .ret a, d => (.ok a, d)
  | .getc k, d => runF (k d.getc.1) d.getc.2
  | .ungetc b k, d => runF k (d.ungetc b)
  | .fail e, d => (.error (if d.eof = true ∧ eofOnly e = true then .io else .dec (errAt d.line e)), d)

/-- `Token` (`/repo/xml/xml.go` 300-369). -/
def tokenF (n : Nat) (m : M) : Except FErr Token × M :=
  match runF (rawTokenP n m.toClose) m.d with
  | (.error .io, d) => (.error .io, { m with d := d })
  | (.error (.dec e), d) =>
    (.error (.dec (if e = .eof ∧ m.stk ≠ [] then errAt d.line unexpectedEOF else e)), { m with d := d })
  | (.ok (t, c), d) =>
    match cook t m.ns m.stk with
    | .error e => (.error (.dec (errAt d.line e)), { m with d := d, toClose := c })
    | .ok (t', ns, stk) => (.ok t', ⟨d, c, ns, stk⟩)

/-- Errors of `Unmarshal`: as before, or that of the reader. -/
inductive IErr where
  | un (e : UErr)
  | io
  deriving DecidableEq

/-- Running a piece of `unmarshal`; every error of `Token` is returned. -/
def runT {α : Type} (n : Nat) : TProg α → M → Except IErr α × M
  | .ret a, m => (.ok a, m)
  | .fail e, m => (.error (.un e), m)
  | .token k, m =>
    match tokenF n m with
    | (.error .io, m') => (.error .io, m')
    | (.error (.dec e), m') => (.error (.un (.dec e)), m')
    | (.ok t, m') => runT n (k t) m'
  | .save k, m => runT n (k (beginSave m).1) (beginSave m).2
  | .offset k, m => runT n (k m.d.savedOffset) m
  | .cut i j k, m => runT n (k (endSave m i j).1) (endSave m i j).2

/-- `Decode` (`/repo/xml/read.go` 143-161) with a reader that returns the bytes `doc` and then fails. -/
def decodeF (io : FloatIO) (F : Nat) (s : Sch) (doc : Bytes) : Except IErr Val × M := runT F (docP io F s) (M.new doc)

end Verif.ReadErr
