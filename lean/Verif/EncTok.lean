import Verif.XmlPrint
import Verif.XmlToken

/-!
Writing a document token by token: `EncodeToken`, `isValidDirective` and `Close`.
-/
namespace Verif.EncTok

open Verif.Xml

/-- Errors of `EncodeToken`. -/
inductive TokErr where
  | printer (e : EncErr)
  | comment | xmlTarget | target | inst | directive
  deriving DecidableEq, Repr

/-- `bytes.Contains`. -/
def contains (s p : Bytes) : Bool := (index s p).isSome

/-- The loop of `isValidDirective` (`/repo/xml/marshal.go` 312-348).  `before` are the bytes already seen, the last one first;
the two bytes in front of a `>` are looked up in it.  `depth` is never negative in Go: the loop returns before. -/
def dirScan : Bytes → Nat → UInt8 → Bool → Bytes → Bool
  | _, depth, inquote, incomment, [] => depth == 0 && inquote == 0 && !incomment
  | before, depth, inquote, incomment, c :: r =>
    if incomment then dirScan (c :: before) depth inquote (!(c == ch%'>' && before.take 2 == b!"--")) r
    else if inquote ≠ 0 then dirScan (c :: before) depth (if c = inquote then 0 else inquote) false r
    else if c = ch%'\'' ∨ c = ch%'"' then dirScan (c :: before) depth c false r
    else if c = ch%'<' then
      if 4 < (c :: r).length ∧ (b!"<!--").isPrefixOf (c :: r) then dirScan (c :: before) depth 0 true r
      else dirScan (c :: before) (depth + 1) 0 false r
    else if c = ch%'>' then
      match depth with
      | 0 => false
      | d + 1 => dirScan (c :: before) d 0 false r
    else dirScan (c :: before) depth 0 false r

/-- `isValidDirective` (`/repo/xml/marshal.go` 312-348). -/
def isValidDirective (dir : Bytes) : Bool := dirScan [] 0 0 false dir

/-- The error of the printer, or the bytes of the pieces. -/
def written : Except EncErr (Printer × List Out) → Except TokErr (Printer × Bytes)
  | .error e => .error (.printer e)
  | .ok (p, o) => .ok (p, outBytes o)

/-- `EncodeToken` (`/repo/xml/marshal.go` 255-308): the printer afterwards and the bytes written.  `buffered` says whether the
buffer of the writer holds anything (`p.w.Buffered() != 0`).  Errors of the writer are modelled in `Verif.WriteIO`.  Only
values of the six token types are modelled; for any other value Go returns an error. -/
def encodeToken (buffered : Bool) (p : Printer) : Token → Except TokErr (Printer × Bytes)
  | .startElement n attrs => written (writeStart p n attrs)
  | .endElement n => written (writeEnd p n)
  | .charData b => .ok (p, escapeText false b)
  | .comment c =>
    if contains c (b!"-->") then .error .comment
    else .ok (p, b!"<!--" ++ c ++ b!"-->")
  | .procInst target inst =>
    if target = b!"xml" ∧ buffered = true then .error .xmlTarget
    else if isName target = false then .error .target
    else if contains inst (b!"?>") then .error .inst
    else .ok (p, b!"<?" ++ target ++ (if inst = [] then [] else ch%' ' :: inst) ++ b!"?>")
  | .directive d =>
    if isValidDirective d = false then .error .directive
    else .ok (p, b!"<!" ++ d ++ b!">")

/-- A sequence of `EncodeToken` calls, up to the first error: the printer afterwards and all bytes written.  How much of what
was written is still in the buffer depends on its size and on calls of `Flush`; `buffered` may be any function of the bytes
written so far. -/
def encodeTokens (buffered : Bytes → Bool) : Printer → Bytes → List Token → Except TokErr (Printer × Bytes)
  | p, out, [] => .ok (p, out)
  | p, out, t :: l =>
    match encodeToken (buffered out) p t with
    | .error e => .error e
    | .ok (p', b) => encodeTokens buffered p' (out ++ b) l

/-- Whether the first `Close` returns no error, the writer returning none (`/repo/xml/marshal.go` 359-361, 1193-1205). -/
def closeOk (p : Printer) : Bool := p.ns.els.length == 0

end Verif.EncTok
