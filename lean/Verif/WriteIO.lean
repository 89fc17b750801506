import Verif.MpdRoundTrip

/-!
Writing to a destination: `WriteXML` and `WriteToString` (`/repo/mpd/io.go` 12-115), the pooled encoder
(`/repo/xml/marshal.go` 158-220, 352-354), the methods of the printer that write (1157-1188, 1208-1211), and the parts of
`bufio.Writer` that they use.

Unlike `Verif/Marshal.lean` and `Verif/XmlPrint.lean`, which collect the output, this file follows the order in which the Go
code calls the printer while it walks the value: a destination that fails, an error and a panic are met after part of the
output has been sent.
-/
namespace Verif.WriteIO

open Verif.Xml Verif.Bind

/-! ### Destinations -/

/-- An `io.Writer`: the new state, the number of bytes accepted, and an error. -/
structure Dest (σ : Type) where
  write : σ → Bytes → σ × Nat × Option Nat

/-- The contract of `io.Writer`: `0 <= n <= len(p)`, and a non-nil error if `n < len(p)`. -/
structure Dest.Lawful {σ : Type} (d : Dest σ) : Prop where
  le : ∀ s p, (d.write s p).2.1 ≤ p.length
  short : ∀ s p, (d.write s p).2.1 < p.length → (d.write s p).2.2 ≠ none

/-- One call of the destination: what was offered, how much was accepted, the error. -/
structure DCall where
  offered : Bytes
  n : Nat
  err : Option Nat
  deriving DecidableEq, Repr

/-- The bytes that the destination has accepted. -/
def accepted (log : List DCall) : Bytes := log.flatMap fun c => c.offered.take c.n

/-- What can end a `Write`. -/
inductive IOErr where
  | dest (e : Nat)
  | shortWrite
  | closed
  | marshal (e : MErr)
  | enc (e : EncErr)
  deriving DecidableEq, Repr

/-- `countingWriter` (`/repo/mpd/io.go` 13-16) with the state of its destination; `log` is the list of all calls, which the
Go code does not keep.  The count is a Go `int`, here unbounded. -/
structure Sink (σ : Type) where
  st : σ
  n : Nat
  log : List DCall

/-- `countingWriter.Write` (`/repo/mpd/io.go` 18-22). -/
def cwWrite {σ : Type} (d : Dest σ) (sk : Sink σ) (p : Bytes) : Sink σ × Nat × Option IOErr :=
  let r := d.write sk.st p
  (⟨r.1, sk.n + r.2.1, sk.log ++ [⟨p, r.2.1, r.2.2⟩]⟩, r.2.1, r.2.2.map .dest)

/-! ### `bufio.Writer` -/

/-- `bufio.defaultBufSize`. -/
def bufSize : Nat := 4096

/-- `bufio.Writer`: the bytes in the buffer and the error; the underlying writer is kept apart. -/
structure Buf where
  buf : Bytes
  err : Option IOErr
  deriving DecidableEq, Repr

/-- `bufio.Writer.Flush`. -/
def flush {σ : Type} (d : Dest σ) (s : Buf × Sink σ) : Buf × Sink σ :=
  if s.1.err ≠ none then s
  else if s.1.buf = [] then s
  else
    let r := cwWrite d s.2 s.1.buf
    let err := if r.2.1 < s.1.buf.length ∧ r.2.2 = none then some .shortWrite else r.2.2
    if err ≠ none then (⟨s.1.buf.drop r.2.1, err⟩, r.1) else (⟨[], none⟩, r.1)

/-- `bufio.Writer.WriteByte`. -/
def wByte {σ : Type} (d : Dest σ) (s : Buf × Sink σ) (c : UInt8) : Buf × Sink σ :=
  if s.1.err ≠ none then s
  else
    let s := if bufSize ≤ s.1.buf.length then flush d s else s
    if s.1.err ≠ none then s else (⟨s.1.buf ++ [c], none⟩, s.2)

/-- The loop of `bufio.Writer.Write` (`direct`) and of `bufio.Writer.WriteString` (not `direct`: a `countingWriter` is no
`io.StringWriter`); also gives what is left to write.  Fuel: one unit per round. -/
def wLoop {σ : Type} (d : Dest σ) (direct : Bool) : Nat → Bytes → Buf × Sink σ → (Buf × Sink σ) × Bytes
  | 0, p, s => (s, p)
  | f + 1, p, s =>
    if bufSize - s.1.buf.length < p.length ∧ s.1.err = none then
      if direct ∧ s.1.buf = [] then
        let r := cwWrite d s.2 p
        wLoop d direct f (p.drop r.2.1) (⟨[], r.2.2⟩, r.1)
      else
        wLoop d direct f (p.drop (bufSize - s.1.buf.length))
          (flush d (⟨s.1.buf ++ p.take (bufSize - s.1.buf.length), none⟩, s.2))
    else (s, p)

/-- `bufio.Writer.Write` and `bufio.Writer.WriteString`.  For a destination that keeps the contract, two rounds more than
there are bytes are enough. -/
def wBytes {σ : Type} (d : Dest σ) (direct : Bool) (p : Bytes) (s : Buf × Sink σ) : Buf × Sink σ :=
  let r := wLoop d direct (p.length + 2) p s
  if r.1.1.err ≠ none then r.1
  else (⟨r.1.1.buf ++ r.2.take (bufSize - r.1.1.buf.length), none⟩, r.1.2)

/-! ### The printer -/

/-- `Encoder` with its `printer` (`/repo/xml/marshal.go` 146-149, 398-410), apart from the destination. -/
structure Enc where
  pr : Printer
  closed : Bool
  err : Option IOErr
  w : Buf
  deriving DecidableEq, Repr

/-- A call of `printer.Write`, `printer.WriteString` or `printer.WriteByte`. -/
inductive WOp where
  | bytes (b : Bytes)
  | string (b : Bytes)
  | byte (c : UInt8)
  deriving DecidableEq, Repr

/-- The bytes of a call. -/
def WOp.data : WOp → Bytes
  | .bytes b => b
  | .string b => b
  | .byte c => [c]

/-- The bytes of a list of calls. -/
def opsData (l : List WOp) : Bytes := l.flatMap WOp.data

/-- The call of `bufio.Writer`. -/
def bufOp {σ : Type} (d : Dest σ) : WOp → Buf × Sink σ → Buf × Sink σ
  | .bytes b, s => wBytes d true b s
  | .string b, s => wBytes d false b s
  | .byte c, s => wByte d s c

/-- `printer.Write`, `printer.WriteString`, `printer.WriteByte` (`/repo/xml/marshal.go` 1157-1188). -/
def prOp {σ : Type} (d : Dest σ) (s : Enc × Sink σ) (o : WOp) : Enc × Sink σ :=
  let err := if s.1.closed = true ∧ s.1.err = none then some .closed else s.1.err
  if err = none then
    let r := bufOp d o (s.1.w, s.2)
    ({ s.1 with err := r.1.err, w := r.1 }, r.2)
  else ({ s.1 with err := err }, s.2)

/-- Several calls. -/
def prOps {σ : Type} (d : Dest σ) (s : Enc × Sink σ) (l : List WOp) : Enc × Sink σ := l.foldl (prOp d) s

/-- The replacement for a rune of `escapeText`, none where the loop continues (`/repo/xml/xml.go` 1973-1998). -/
def textEsc (nl : Bool) (p : Nat × Bytes) : Option Bytes :=
  if p.1 = 34 ∨ p.1 = 39 ∨ p.1 = 38 ∨ p.1 = 60 ∨ p.1 = 62 ∨ p.1 = 13 then some (escTextRune nl p)
  else if p.1 = 10 then (if nl then some (escTextRune nl p) else none)
  else if inCharRange p.1 = false ∨ (p.1 = 0xFFFD ∧ p.2.length = 1) then some fffd else none

/-- The replacement for a rune of `EscapeString` (`/repo/xml/xml.go` 2018-2041). -/
def stringEsc (p : Nat × Bytes) : Option Bytes :=
  if p.1 = 34 ∨ p.1 = 39 ∨ p.1 = 38 ∨ p.1 = 60 ∨ p.1 = 62 ∨ p.1 = 9 ∨ p.1 = 10 ∨ p.1 = 13 then some (escStringRune p)
  else if inCharRange p.1 = false ∨ (p.1 = 0xFFFD ∧ p.2.length = 1) then some fffd else none

/-- The loop of `escapeText` and `EscapeString` (`/repo/xml/xml.go` 1970-2008, 2014-2046): runs of bytes and replacements;
`pend` is the current run. -/
def escOps (mk : Bytes → WOp) (f : Nat × Bytes → Option Bytes) : List (Nat × Bytes) → Bytes → List WOp
  | [], pend => [mk pend]
  | p :: l, pend =>
    match f p with
    | some e => mk pend :: .bytes e :: escOps mk f l []
    | none => escOps mk f l (pend ++ p.2)

/-- The calls for an attribute (`/repo/xml/marshal.go` 494-500, 880-884, 890-911).  A name with a prefix is written in three
calls and ` xmlns="` in one; `wString_append` shows that such cuts do not matter. -/
def attrOps (a : TagAttr) : List WOp :=
  [.byte (ch%' '), .string a.name, .string (b!"=\"")] ++ escOps .string stringEsc (Utf8.runes a.value) [] ++ [.byte (ch%'"')]

/-- The calls for a piece of output (`/repo/xml/marshal.go` 862-913, 938-945, 655-662, 1126-1134). -/
def outOps : Out → List WOp
  | .start q attrs => [.byte (ch%'<'), .string q] ++ attrs.flatMap attrOps ++ [.byte (ch%'>')]
  | .stop q => [.byte (ch%'<'), .byte (ch%'/'), .string q, .byte (ch%'>')]
  | .text b => escOps .bytes (textEsc false) (Utf8.runes b) []
  | .str b => escOps .string stringEsc (Utf8.runes b) []
  | .raw b => [.string b]
  | .inner b => [.string b]

/-- What `marshalValue` and `marshalStruct` do with the printer, in order; `check` is `cachedWriteError`
(`/repo/xml/marshal.go` 1208-1211), `fail` an error or a panic of their own. -/
inductive Call where
  | start (n : Name) (attrs : List Attr)
  | stop (n : Name)
  | text (b : Bytes)
  | str (b : Bytes)
  | raw (b : Bytes)
  | check
  | fail (e : MErr)
  deriving DecidableEq, Repr

/-- The end of a run: an error or a panic. -/
inductive Stop where
  | err (e : IOErr)
  | panic
  deriving DecidableEq, Repr

/-- The end for an error of marshalling. -/
def failStop : MErr → Stop
  | .panic => .panic
  | e => .err (.marshal e)

/-- The end for a cached error. -/
def errStop (e : Option IOErr) : Option Stop := e.map .err

/-- One call of `marshalValue` or `marshalStruct`.  `writeStart` and `writeEnd` change the element stack whether or not the
destination has failed; the error of `EscapeText` is returned at once (`/repo/xml/marshal.go` 1065-1068), that of
`EscapeString` is not looked at. -/
def exec {σ : Type} (d : Dest σ) (s : Enc × Sink σ) : Call → (Enc × Sink σ) × Option Stop
  | .start n attrs =>
    match writeStart s.1.pr n attrs with
    | .error e => (s, some (.err (.enc e)))
    | .ok (p, o) => (prOps d ({ s.1 with pr := p }, s.2) (o.flatMap outOps), none)
  | .stop n =>
    match writeEnd s.1.pr n with
    | .error e => (s, some (.err (.enc e)))
    | .ok (p, o) => (prOps d ({ s.1 with pr := p }, s.2) (o.flatMap outOps), none)
  | .text b =>
    let s := prOps d s (outOps (.text b))
    (s, errStop s.1.err)
  | .str b => (prOps d s (outOps (.str b)), none)
  | .raw b => (prOps d s (outOps (.inner b)), none)
  | .check =>
    let s := prOp d s (.bytes [])
    (s, errStop s.1.err)
  | .fail e => (s, some (failStop e))

/-- A sequence of calls. -/
def run {σ : Type} (d : Dest σ) (s : Enc × Sink σ) : List Call → (Enc × Sink σ) × Option Stop
  | [] => (s, none)
  | c :: l =>
    match exec d s c with
    | (s1, some e) => (s1, some e)
    | (s1, none) => run d s1 l

/-! ### Walking a value -/

/-- A `chardata` field (`/repo/xml/marshal.go` 1017-1083). -/
def charCalls (io : FloatIO) : Sch → Val → List Call
  | .simple k, v =>
    match marshalSimple io k v with
    | .ok b => [.text b]
    | .error _ => []
  | .ptr s, .ptr (some v) => charCalls io s v
  | _, _ => []

/-- An `innerxml` field (`/repo/xml/marshal.go` 1123-1133). -/
def rawCalls : Sch → Val → List Call
  | .simple .str, .str b => [.raw b]
  | _, _ => [.fail .unsupported]

/-- One field of `marshalStruct` (`/repo/xml/marshal.go` 1004-1151). -/
def fieldCalls (io : FloatIO) (fi : FInfo) (s : Sch) (v : Val) (r : List Call) : List Call :=
  if fi.mode = .attr ∨ fi.mode = .anyAttr ∨ v.isAbsent then []
  else if fi.mode = .chardata then charCalls io s v
  else if fi.mode = .innerxml then rawCalls s v
  else if omits (some fi) s v then []
  else r

mutual
/-- `marshalValue` after the check for `omitempty` (`/repo/xml/marshal.go` 524-672). -/
def walkV (io : FloatIO) (parentNs : Bytes) (fi : Option FInfo) : Sch → Val → List Call
  | .ptr _, .ptr none => []
  | .ptr s, .ptr (some v) => walkV io parentNs fi s v
  | .slice s, .slice l => l.flatMap fun v => if omits fi s v then [] else walkV io parentNs fi s v
  | .simple k, v =>
    .start (startName none ⟨[], []⟩ fi []) [] ::
      match marshalSimple io k v with
      | .error e => [.fail e]
      | .ok b => [.str b, .stop (startName none ⟨[], []⟩ fi []), .check]
  | .struct tn xn infos subs, .struct xv vs =>
    match marshalAttrs io infos subs vs with
    | .error e => [.fail e]
    | .ok attrs =>
      [.start (startName xn xv fi tn) (attrs ++ resetNs parentNs xn (startName xn xv fi tn))] ++
        walkFields io (startName xn xv fi tn).space infos subs vs ++ [.check, .stop (startName xn xv fi tn), .check]
  | .bad e, _ => [.fail (.info e)]
  | _, _ => [.fail .unsupported]
/-- `marshalStruct` (`/repo/xml/marshal.go` 1002-1155), without its last line. -/
def walkFields (io : FloatIO) (ns : Bytes) : List FInfo → List Sch → List Val → List Call
  | fi :: fis, s :: ss, v :: vs =>
    fieldCalls io fi s v (walkV io ns (some fi) s v) ++ walkFields io ns fis ss vs
  | _, _, _ => []
end

/-! ### Encoders and `WriteXML` -/

/-- A new encoder of the pool (`/repo/xml/marshal.go` 161-167). -/
def Enc.fresh : Enc := ⟨Printer.new [] [], false, none, ⟨[], none⟩⟩

/-- `AcquireEncoder` on what the pool gives (`/repo/xml/marshal.go` 172-178). -/
def acquire (e : Enc) : Enc := { e with closed := false, err := none, w := ⟨[], none⟩ }

/-- `ReleaseEncoder` (`/repo/xml/marshal.go` 182-198): the encoder that goes back to the pool. -/
def release (e : Enc) : Enc :=
  { e with
    w := ⟨[], none⟩
    pr := { ns := { e.pr.ns with seq := 0, els := [] }
            ind := { e.pr.ind with indent := [], pre := [], depth := 0, indentedIn := false, putNewline := false } }
    closed := false
    err := none }

/-- `Encoder.Indent` (`/repo/xml/marshal.go` 203-206). -/
def setIndent (e : Enc) (pre indent : Bytes) : Enc :=
  { e with pr := { e.pr with ind := { e.pr.ind with pre := pre, indent := indent } } }

/-- `Encoder.Flush` and the last line of `Encode` (`/repo/xml/marshal.go` 219, 352-354). -/
def encFlush {σ : Type} (d : Dest σ) (s : Enc × Sink σ) : (Enc × Sink σ) × Option Stop :=
  let r := flush d (s.1.w, s.2)
  (({ s.1 with w := r.1 }, r.2), errStop r.1.err)

/-- `Encode` (`/repo/xml/marshal.go` 214-220) followed by `Flush` (`/repo/mpd/io.go` 71-76). -/
def encodeFlush {σ : Type} (d : Dest σ) (s : Enc × Sink σ) (l : List Call) : (Enc × Sink σ) × Option Stop :=
  match run d s l with
  | (s1, some e) => (s1, some e)
  | (s1, none) =>
    match encFlush d s1 with
    | (s2, some e) => (s2, some e)
    | (s2, none) => encFlush d s2

/-- The header (`/repo/mpd/io.go` 62-66). -/
def writeHeader {σ : Type} (d : Dest σ) (sk : Sink σ) (hdr : Bool) : Sink σ × Option Stop :=
  if hdr then
    let r := cwWrite d sk xmlHeader
    (r.1, errStop r.2.2)
  else (sk, none)

/-- What comes out of a `Write`: the destination, the count, how it ended. -/
structure Result (σ : Type) where
  sink : Sink σ
  n : Nat
  stop : Option Stop

/-- `WriteXML` (`/repo/mpd/io.go` 59-78) with the encoder that the pool gives, and what goes back to the pool (`none` if no
encoder was taken).  The deferred `ReleaseEncoder` also runs for an error and for a panic. -/
def writeXML {σ : Type} (io : FloatIO) (d : Dest σ) (s0 : σ) (pooled : Enc) (s : Sch) (v : Val) (indent : Bytes)
    (hdr : Bool) : Result σ × Option Enc :=
  match writeHeader d ⟨s0, 0, []⟩ hdr with
  | (sk, some e) => (⟨sk, sk.n, some e⟩, none)
  | (sk, none) =>
    let r := encodeFlush d (setIndent (acquire pooled) [] indent, sk) (walkV io [] none s v)
    (⟨r.1.2, r.1.2.n, r.2⟩, some (release r.1.1))

/-- `strings.Builder` as a destination. -/
def builder : Dest Bytes := ⟨fun s p => (s ++ p, p.length, none)⟩

/-- `WriteToString` (`/repo/mpd/io.go` 90-97, 108-115): the text and how it ended; a panic is passed on. -/
def writeToString (io : FloatIO) (pooled : Enc) (s : Sch) (v : Val) (indent : Bytes) (hdr : Bool) :
    Bytes × Option Stop :=
  let r := (writeXML io builder [] pooled s v indent hdr).1
  if r.stop = none then (r.sink.st, none) else ([], r.stop)

end Verif.WriteIO
