import Verif.EncTok

/-!
Types with `MarshalText` and `UnmarshalText` (`encoding.TextMarshaler`, `encoding.TextUnmarshaler`) as elements.
-/
namespace Verif.TextMethods

open Verif.Xml Verif.EncTok

/-- `marshalTextInterface` (`/repo/xml/marshal.go` 800-811): the printer afterwards and the bytes written; `text` is what `MarshalText`
returns, `none` stands for its error. `EscapeText` does not escape line ends (`/repo/xml/xml.go` 1958-1962). What is written when
`MarshalText` fails is not modelled. -/
def marshalText (p : Printer) (n : Name) (attrs : List Attr) (text : Option Bytes) : Except (Option EncErr) (Printer × Bytes) :=
  match writeStart p n attrs with
  | .error e => .error (some e)
  | .ok (p1, o1) =>
    match text with
    | none => .error none
    | some t =>
      match writeEnd p1 n with
      | .error e => .error (some e)
      | .ok (p2, o2) => .ok (p2, outBytes o1 ++ escapeText false t ++ outBytes o2)

/-- The loop of `unmarshalTextInterface` (`/repo/xml/read.go` 231-251): what `UnmarshalText` is given, and the tokens that are left. The
decoder is the list of tokens it returns and the error `fin` that follows them. -/
def readText (fin : XErr) : List Token → Nat → Bytes → Except XErr (Bytes × List Token)
  | l, 0, buf => .ok (buf, l)
  | [], _ + 1, _ => .error fin
  | .charData b :: l, d + 1, buf => readText fin l (d + 1) (if d + 1 = 1 then buf ++ b else buf)
  | .startElement _ _ :: l, d + 1, buf => readText fin l (d + 1 + 1) buf
  | .endElement _ :: l, d + 1, buf => readText fin l d buf
  | _ :: l, d + 1, buf => readText fin l (d + 1) buf

/-- `unmarshalTextInterface` (`/repo/xml/read.go` 231-251) after the start element. -/
def unmarshalText (l : List Token) (fin : XErr) : Except XErr (Bytes × List Token) := readText fin l 1 []

end Verif.TextMethods
