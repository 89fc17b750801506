import Verif.Utf8

/-!
Character data, names and escaping of the `xml` package (`/repo/xml/xml.go` 926-1334, 1944-2052).

The decoder is modelled in strict mode (`Decoder.Strict = true`, the only mode `xml.Unmarshal` uses) over an input
that is a byte list ending in `io.EOF`; `ungetc` puts a byte back in front of the remaining input.  Line numbers,
offsets and saved input are in `Verif.Machine`.
-/
namespace Verif.Xml

open Verif.Utf8

/-- Errors of the decoder: `io.EOF`, a `*SyntaxError` (its fixed message, without the quoted input text), or one of
the `fmt.Errorf` errors of `rawToken` and of unmarshalling. -/
inductive XErr where
  | eof
  | syntaxError (msg : String)
  | other (msg : String)
  deriving DecidableEq, Repr

/-- `mustgetc` at the end of the input (`/repo/xml/xml.go` 998-1005). -/
def unexpectedEOF : XErr := .syntaxError "unexpected EOF"

/-- `isInCharacterRange` (`/repo/xml/xml.go` 1202-1209). -/
def inCharRange (r : Nat) : Bool :=
  decide (r = 0x09) || decide (r = 0x0A) || decide (r = 0x0D) || (decide (0x20 ≤ r) && decide (r ≤ 0xD7FF)) ||
    (decide (0xE000 ≤ r) && decide (r ≤ 0xFFFD)) || (decide (0x10000 ≤ r) && decide (r ≤ 0x10FFFF))

/-- The table `first` (`/repo/xml/xml.go` 1339-1532), as (lowest, highest, stride). -/
def firstTable : List (Nat × Nat × Nat) :=
  [(0x003A, 0x003A, 1), (0x0041, 0x005A, 1), (0x005F, 0x005F, 1), (0x0061, 0x007A, 1), (0x00C0, 0x00D6, 1),
   (0x00D8, 0x00F6, 1), (0x00F8, 0x00FF, 1), (0x0100, 0x0131, 1), (0x0134, 0x013E, 1), (0x0141, 0x0148, 1),
   (0x014A, 0x017E, 1), (0x0180, 0x01C3, 1), (0x01CD, 0x01F0, 1), (0x01F4, 0x01F5, 1), (0x01FA, 0x0217, 1),
   (0x0250, 0x02A8, 1), (0x02BB, 0x02C1, 1), (0x0386, 0x0386, 1), (0x0388, 0x038A, 1), (0x038C, 0x038C, 1),
   (0x038E, 0x03A1, 1), (0x03A3, 0x03CE, 1), (0x03D0, 0x03D6, 1), (0x03DA, 0x03E0, 2), (0x03E2, 0x03F3, 1),
   (0x0401, 0x040C, 1), (0x040E, 0x044F, 1), (0x0451, 0x045C, 1), (0x045E, 0x0481, 1), (0x0490, 0x04C4, 1),
   (0x04C7, 0x04C8, 1), (0x04CB, 0x04CC, 1), (0x04D0, 0x04EB, 1), (0x04EE, 0x04F5, 1), (0x04F8, 0x04F9, 1),
   (0x0531, 0x0556, 1), (0x0559, 0x0559, 1), (0x0561, 0x0586, 1), (0x05D0, 0x05EA, 1), (0x05F0, 0x05F2, 1),
   (0x0621, 0x063A, 1), (0x0641, 0x064A, 1), (0x0671, 0x06B7, 1), (0x06BA, 0x06BE, 1), (0x06C0, 0x06CE, 1),
   (0x06D0, 0x06D3, 1), (0x06D5, 0x06D5, 1), (0x06E5, 0x06E6, 1), (0x0905, 0x0939, 1), (0x093D, 0x093D, 1),
   (0x0958, 0x0961, 1), (0x0985, 0x098C, 1), (0x098F, 0x0990, 1), (0x0993, 0x09A8, 1), (0x09AA, 0x09B0, 1),
   (0x09B2, 0x09B2, 1), (0x09B6, 0x09B9, 1), (0x09DC, 0x09DD, 1), (0x09DF, 0x09E1, 1), (0x09F0, 0x09F1, 1),
   (0x0A05, 0x0A0A, 1), (0x0A0F, 0x0A10, 1), (0x0A13, 0x0A28, 1), (0x0A2A, 0x0A30, 1), (0x0A32, 0x0A33, 1),
   (0x0A35, 0x0A36, 1), (0x0A38, 0x0A39, 1), (0x0A59, 0x0A5C, 1), (0x0A5E, 0x0A5E, 1), (0x0A72, 0x0A74, 1),
   (0x0A85, 0x0A8B, 1), (0x0A8D, 0x0A8D, 1), (0x0A8F, 0x0A91, 1), (0x0A93, 0x0AA8, 1), (0x0AAA, 0x0AB0, 1),
   (0x0AB2, 0x0AB3, 1), (0x0AB5, 0x0AB9, 1), (0x0B05, 0x0B0C, 1), (0x0B0F, 0x0B10, 1), (0x0B13, 0x0B28, 1),
   (0x0B2A, 0x0B30, 1), (0x0B32, 0x0B33, 1), (0x0B36, 0x0B39, 1), (0x0B3D, 0x0B3D, 1), (0x0B5C, 0x0B5D, 1),
   (0x0B5F, 0x0B61, 1), (0x0B85, 0x0B8A, 1), (0x0B8E, 0x0B90, 1), (0x0B92, 0x0B95, 1), (0x0B99, 0x0B9A, 1),
   (0x0B9C, 0x0B9C, 1), (0x0B9E, 0x0B9F, 1), (0x0BA3, 0x0BA4, 1), (0x0BA8, 0x0BAA, 1), (0x0BAE, 0x0BB5, 1),
   (0x0BB7, 0x0BB9, 1), (0x0C05, 0x0C0C, 1), (0x0C0E, 0x0C10, 1), (0x0C12, 0x0C28, 1), (0x0C2A, 0x0C33, 1),
   (0x0C35, 0x0C39, 1), (0x0C60, 0x0C61, 1), (0x0C85, 0x0C8C, 1), (0x0C8E, 0x0C90, 1), (0x0C92, 0x0CA8, 1),
   (0x0CAA, 0x0CB3, 1), (0x0CB5, 0x0CB9, 1), (0x0CDE, 0x0CDE, 1), (0x0CE0, 0x0CE1, 1), (0x0D05, 0x0D0C, 1),
   (0x0D0E, 0x0D10, 1), (0x0D12, 0x0D28, 1), (0x0D2A, 0x0D39, 1), (0x0D60, 0x0D61, 1), (0x0E01, 0x0E2E, 1),
   (0x0E30, 0x0E30, 1), (0x0E32, 0x0E33, 1), (0x0E40, 0x0E45, 1), (0x0E81, 0x0E82, 1), (0x0E84, 0x0E84, 1),
   (0x0E87, 0x0E88, 1), (0x0E8A, 0x0E8D, 3), (0x0E94, 0x0E97, 1), (0x0E99, 0x0E9F, 1), (0x0EA1, 0x0EA3, 1),
   (0x0EA5, 0x0EA7, 2), (0x0EAA, 0x0EAB, 1), (0x0EAD, 0x0EAE, 1), (0x0EB0, 0x0EB0, 1), (0x0EB2, 0x0EB3, 1),
   (0x0EBD, 0x0EBD, 1), (0x0EC0, 0x0EC4, 1), (0x0F40, 0x0F47, 1), (0x0F49, 0x0F69, 1), (0x10A0, 0x10C5, 1),
   (0x10D0, 0x10F6, 1), (0x1100, 0x1100, 1), (0x1102, 0x1103, 1), (0x1105, 0x1107, 1), (0x1109, 0x1109, 1),
   (0x110B, 0x110C, 1), (0x110E, 0x1112, 1), (0x113C, 0x1140, 2), (0x114C, 0x1150, 2), (0x1154, 0x1155, 1),
   (0x1159, 0x1159, 1), (0x115F, 0x1161, 1), (0x1163, 0x1169, 2), (0x116D, 0x116E, 1), (0x1172, 0x1173, 1),
   (0x11AE, 0x11AF, 1), (0x11B7, 0x11B8, 1), (0x11BA, 0x11BA, 1), (0x11BC, 0x11C2, 1), (0x11F9, 0x11F9, 1),
   (0x1E00, 0x1E9B, 1), (0x1EA0, 0x1EF9, 1), (0x1F00, 0x1F15, 1), (0x1F18, 0x1F1D, 1), (0x1F20, 0x1F45, 1),
   (0x1F48, 0x1F4D, 1), (0x1F50, 0x1F57, 1), (0x1F5D, 0x1F5D, 1), (0x1F5F, 0x1F7D, 1), (0x1F80, 0x1FB4, 1),
   (0x1FB6, 0x1FBC, 1), (0x1FBE, 0x1FBE, 1), (0x1FC2, 0x1FC4, 1), (0x1FC6, 0x1FCC, 1), (0x1FD0, 0x1FD3, 1),
   (0x1FD6, 0x1FDB, 1), (0x1FE0, 0x1FEC, 1), (0x1FF2, 0x1FF4, 1), (0x1FF6, 0x1FFC, 1), (0x2126, 0x2126, 1),
   (0x212A, 0x212B, 1), (0x212E, 0x212E, 1), (0x2180, 0x2182, 1), (0x3007, 0x3007, 1), (0x3021, 0x3029, 1),
   (0x3041, 0x3094, 1), (0x30A1, 0x30FA, 1), (0x3105, 0x312C, 1), (0x4E00, 0x9FA5, 1), (0xAC00, 0xD7A3, 1)]

/-- The table `second` (`/repo/xml/xml.go` 1534-1649), as (lowest, highest, stride). -/
def secondTable : List (Nat × Nat × Nat) :=
  [(0x002D, 0x002E, 1), (0x0030, 0x0039, 1), (0x00B7, 0x00B7, 1), (0x02D0, 0x02D1, 1), (0x0300, 0x0345, 1),
   (0x0360, 0x0361, 1), (0x0387, 0x0387, 1), (0x0483, 0x0486, 1), (0x0591, 0x05A1, 1), (0x05A3, 0x05B9, 1),
   (0x05BB, 0x05BD, 1), (0x05BF, 0x05BF, 1), (0x05C1, 0x05C2, 1), (0x064B, 0x0652, 1), (0x0660, 0x0669, 1),
   (0x0670, 0x0670, 1), (0x06D6, 0x06DC, 1), (0x06DD, 0x06DF, 1), (0x06E0, 0x06E4, 1), (0x06E7, 0x06E8, 1),
   (0x06EA, 0x06ED, 1), (0x06F0, 0x06F9, 1), (0x0901, 0x0903, 1), (0x093C, 0x093C, 1), (0x093E, 0x094C, 1),
   (0x094D, 0x094D, 1), (0x0951, 0x0954, 1), (0x0962, 0x0963, 1), (0x0966, 0x096F, 1), (0x0981, 0x0983, 1),
   (0x09BC, 0x09BC, 1), (0x09BE, 0x09BF, 1), (0x09C0, 0x09C4, 1), (0x09C7, 0x09C8, 1), (0x09CB, 0x09CD, 1),
   (0x09D7, 0x09D7, 1), (0x09E2, 0x09E3, 1), (0x09E6, 0x09EF, 1), (0x0A3E, 0x0A3F, 1), (0x0A40, 0x0A42, 1),
   (0x0A47, 0x0A48, 1), (0x0A4B, 0x0A4D, 1), (0x0A66, 0x0A6F, 1), (0x0A70, 0x0A71, 1), (0x0A81, 0x0A83, 1),
   (0x0ABC, 0x0ABC, 1), (0x0ABE, 0x0AC5, 1), (0x0AC7, 0x0AC9, 1), (0x0ACB, 0x0ACD, 1), (0x0AE6, 0x0AEF, 1),
   (0x0B01, 0x0B03, 1), (0x0B3C, 0x0B3C, 1), (0x0B3E, 0x0B43, 1), (0x0B47, 0x0B48, 1), (0x0B4B, 0x0B4D, 1),
   (0x0B56, 0x0B57, 1), (0x0B66, 0x0B6F, 1), (0x0B82, 0x0B83, 1), (0x0BBE, 0x0BC2, 1), (0x0BC6, 0x0BC8, 1),
   (0x0BCA, 0x0BCD, 1), (0x0BD7, 0x0BD7, 1), (0x0BE7, 0x0BEF, 1), (0x0C01, 0x0C03, 1), (0x0C3E, 0x0C44, 1),
   (0x0C46, 0x0C48, 1), (0x0C4A, 0x0C4D, 1), (0x0C55, 0x0C56, 1), (0x0C66, 0x0C6F, 1), (0x0C82, 0x0C83, 1),
   (0x0CBE, 0x0CC4, 1), (0x0CC6, 0x0CC8, 1), (0x0CCA, 0x0CCD, 1), (0x0CD5, 0x0CD6, 1), (0x0CE6, 0x0CEF, 1),
   (0x0D02, 0x0D03, 1), (0x0D3E, 0x0D43, 1), (0x0D46, 0x0D48, 1), (0x0D4A, 0x0D4D, 1), (0x0D57, 0x0D57, 1),
   (0x0D66, 0x0D6F, 1), (0x0E31, 0x0E31, 1), (0x0E34, 0x0E3A, 1), (0x0E46, 0x0E46, 1), (0x0E47, 0x0E4E, 1),
   (0x0E50, 0x0E59, 1), (0x0EB1, 0x0EB1, 1), (0x0EB4, 0x0EB9, 1), (0x0EBB, 0x0EBC, 1), (0x0EC6, 0x0EC6, 1),
   (0x0EC8, 0x0ECD, 1), (0x0ED0, 0x0ED9, 1), (0x0F18, 0x0F19, 1), (0x0F20, 0x0F29, 1), (0x0F35, 0x0F39, 2),
   (0x0F3E, 0x0F3F, 1), (0x0F71, 0x0F84, 1), (0x0F86, 0x0F8B, 1), (0x0F90, 0x0F95, 1), (0x0F97, 0x0F97, 1),
   (0x0F99, 0x0FAD, 1), (0x0FB1, 0x0FB7, 1), (0x0FB9, 0x0FB9, 1), (0x20D0, 0x20DC, 1), (0x302A, 0x302F, 1),
   (0x3031, 0x3035, 1), (0x3099, 0x309A, 1), (0x309D, 0x309E, 1), (0x30FC, 0x30FE, 1)]

/-- `unicode.Is` on a range table: some range contains the rune at a multiple of the stride.  The Go function finds
the range by binary search in the sorted table (`nameTables_sorted`). -/
def inTable (t : List (Nat × Nat × Nat)) (r : Nat) : Bool :=
  t.any fun (lo, hi, stride) => decide (lo ≤ r) && decide (r ≤ hi) && decide ((r - lo) % stride = 0)

/-- `isNameByte` (`/repo/xml/xml.go` 1279-1284). -/
def isNameByte (c : UInt8) : Bool :=
  (decide (65 ≤ c.toNat) && decide (c.toNat ≤ 90)) || (decide (97 ≤ c.toNat) && decide (c.toNat ≤ 122)) ||
    (decide (48 ≤ c.toNat) && decide (c.toNat ≤ 57)) || c == ch%'_' || c == ch%':' || c == ch%'.' || c == ch%'-'

/-- The runes after the first one in `isName` (`/repo/xml/xml.go` 1297-1306). -/
def nameTail (l : List (Nat × Bytes)) : Bool :=
  l.all fun (r, c) => !(decide (r = 0xFFFD) && decide (c.length = 1)) && (inTable firstTable r || inTable secondTable r)

/-- `isName` and `isNameString` (`/repo/xml/xml.go` 1286-1334). -/
def isName (s : Bytes) : Bool :=
  match runes s with
  | [] => false
  | (r, c) :: l => !(decide (r = 0xFFFD) && decide (c.length = 1)) && inTable firstTable r && nameTail l

/-- A byte that `readName` accepts (`/repo/xml/xml.go` 1260, 1270): a name byte or any byte of a multi-byte character. -/
def nameOrHigh (b : UInt8) : Bool := decide (0x80 ≤ b.toNat) || isNameByte b

/-- `readName` (`/repo/xml/xml.go` 1255-1277): the name bytes and the remaining input.  A name that reaches the end of
the input is an unexpected EOF; a missing name (`return false` without error) is the empty name here. -/
def readName (s : Bytes) : Except XErr (Bytes × Bytes) :=
  match s.dropWhile nameOrHigh with
  | [] => .error unexpectedEOF
  | r => .ok (s.takeWhile nameOrHigh, r)

/-- The predefined entities (`/repo/xml/xml.go` 1016-1022); `Decoder.Entity` is nil in `Unmarshal`. -/
def entity (s : Bytes) : Option Nat :=
  if s = b!"lt" then some 60
  else if s = b!"gt" then some 62
  else if s = b!"amp" then some 38
  else if s = b!"apos" then some 39
  else if s = b!"quot" then some 34
  else none

/-- A digit of a numeric character reference (`/repo/xml/xml.go` 1102-1104). -/
def isRefDigit (hex : Bool) (b : UInt8) : Bool :=
  (decide (48 ≤ b.toNat) && decide (b.toNat ≤ 57)) ||
    (hex && ((decide (97 ≤ b.toNat) && decide (b.toNat ≤ 102)) || (decide (65 ≤ b.toNat) && decide (b.toNat ≤ 70))))

/-- Value of a digit accepted by `isRefDigit`. -/
def refDigit (b : UInt8) : Nat :=
  if b.toNat ≤ 57 then b.toNat - 48 else if b.toNat ≤ 70 then b.toNat - 55 else b.toNat - 87

/-- `strconv.ParseUint(s, base, 64)` on a string of digits, without the range check that is subsumed by the test
`n <= unicode.MaxRune` following it (`/repo/xml/xml.go` 1115-1116). -/
def refVal (hex : Bool) (s : Bytes) : Nat := s.foldl (fun a d => (if hex then 16 else 10) * a + refDigit d) 0

/-- The error of a reference that is not understood in strict mode (`/repo/xml/xml.go` 1158-1163). -/
def badEntity : XErr := .syntaxError "invalid character entity"

/-- The numeric reference after `&#` or `&#x` (`/repo/xml/xml.go` 1093-1120). -/
def numRef (hex : Bool) (s : Bytes) : Except XErr (Bytes × Bytes) :=
  match s.dropWhile (isRefDigit hex) with
  | [] => .error unexpectedEOF
  | b :: r =>
    if b ≠ ch%';' then .error badEntity
    else if s.takeWhile (isRefDigit hex) ≠ [] ∧ refVal hex (s.takeWhile (isRefDigit hex)) ≤ 0x10FFFF then
      .ok (encodeRune (refVal hex (s.takeWhile (isRefDigit hex))), r)
    else .error badEntity

/-- The named reference after `&` (`/repo/xml/xml.go` 1121-1146). -/
def nameRef (s : Bytes) : Except XErr (Bytes × Bytes) :=
  match readName s with
  | .error e => .error e
  | .ok (_, []) => .error unexpectedEOF
  | .ok (nm, b :: r) =>
    if b ≠ ch%';' then .error badEntity
    else if isName nm then
      match entity nm with
      | some c => .ok (encodeRune c, r)
      | none => .error badEntity
    else .error badEntity

/-- A reference, after its `&` (`/repo/xml/xml.go` 1074-1164): the replacement text and the remaining input. -/
def entityRef : Bytes → Except XErr (Bytes × Bytes)
  | [] => .error unexpectedEOF
  | [b] => if b = ch%'#' then .error unexpectedEOF else nameRef [b]
  | b :: c :: r =>
    if b = ch%'#' then (if c = ch%'x' then numRef true r else numRef false (c :: r))
    else nameRef (b :: c :: r)

/-- The bytes appended for an ordinary byte: line ends become newlines (`/repo/xml/xml.go` 1166-1174). -/
def putByte (b1 b : UInt8) : Bytes :=
  if b = ch%'\r' then [ch%'\n'] else if b1 = ch%'\r' ∧ b = ch%'\n' then [] else [b]

/-- The loop of `text` (`/repo/xml/xml.go` 1029-1177): `q` is the closing quote if in a quoted string, `cd` tells whether
in a CDATA section, `b0 b1` are the last two bytes, `buf` the text so far.  Fuel: one unit per iteration. -/
def textLoop : Nat → Option UInt8 → Bool → UInt8 → UInt8 → Bytes → Bytes → Except XErr (Bytes × Bytes)
  | 0, _, _, _, _, _, _ => .error unexpectedEOF
  | _ + 1, _, cd, _, _, buf, [] =>
    if cd then .error (.syntaxError "unexpected EOF in CDATA section") else .ok (buf, [])
  | n + 1, q, cd, b0, b1, buf, b :: r =>
    if q = none ∧ b0 = ch%']' ∧ b1 = ch%']' ∧ b = ch%'>' then
      (if cd then .ok (buf.take (buf.length - 2), r)
       else .error (.syntaxError "unescaped ]]> not in CDATA section"))
    else if b = ch%'<' ∧ cd = false then
      (if q ≠ none then .error (.syntaxError "unescaped < inside quoted string") else .ok (buf, b :: r))
    else if b = ch%'>' ∧ cd = false ∧ q = none then .ok (buf, b :: r)
    else if q = some b then .ok (buf, r)
    else if b = ch%'&' ∧ cd = false then
      match entityRef r with
      | .error e => .error e
      | .ok (t, r') => textLoop n q cd 0 0 (buf ++ t) r'
    else textLoop n q cd b1 b (buf ++ putByte b1 b) r

/-- The character check at the end of `text` (`/repo/xml/xml.go` 1181-1194). -/
def checkChars : List (Nat × Bytes) → Option XErr
  | [] => none
  | (r, c) :: l =>
    if r = 0xFFFD ∧ c.length = 1 then some (.syntaxError "invalid UTF-8")
    else if inCharRange r then checkChars l
    else some (.syntaxError "illegal character code")

/-- `text` (`/repo/xml/xml.go` 1024-1197): the text and the remaining input. -/
def text (q : Option UInt8) (cd : Bool) (s : Bytes) : Except XErr (Bytes × Bytes) :=
  match textLoop (s.length + 1) q cd 0 0 [] s with
  | .error e => .error e
  | .ok (data, r) =>
    match checkChars (runes data) with
    | some e => .error e
    | none => .ok (data, r)

/-! ### Escaping -/

/-- The bytes of U+FFFD, `escFFFD`. -/
def fffd : Bytes := [0xEF, 0xBF, 0xBD]

/-- The `default` case of `escapeText` and `EscapeString` (`/repo/xml/xml.go` 1991-1996, 2035-2040). -/
def escDefault (r : Nat) (c : Bytes) : Bytes :=
  if inCharRange r = false ∨ (r = 0xFFFD ∧ c.length = 1) then fffd else c

/-- What `escapeText` writes for one rune (`/repo/xml/xml.go` 1971-1997). -/
def escTextRune (nl : Bool) (p : Nat × Bytes) : Bytes :=
  if p.1 = 34 then (b!"&#34;")
  else if p.1 = 39 then (b!"&#39;")
  else if p.1 = 38 then (b!"&amp;")
  else if p.1 = 60 then (b!"&lt;")
  else if p.1 = 62 then (b!"&gt;")
  else if p.1 = 10 then (if nl then (b!"&#xA;") else p.2)
  else if p.1 = 13 then (b!"&#xD;")
  else escDefault p.1 p.2

/-- `escapeText` (`/repo/xml/xml.go` 1958-2008) to a writer that accepts everything: the concatenation of what is
written for each rune (the Go code writes runs of unescaped runes in one call). -/
def escapeText (nl : Bool) (s : Bytes) : Bytes := (runes s).flatMap (escTextRune nl)

/-- What `EscapeString` writes for one rune (`/repo/xml/xml.go` 2016-2041). -/
def escStringRune (p : Nat × Bytes) : Bytes :=
  if p.1 = 34 then (b!"&#34;")
  else if p.1 = 39 then (b!"&#39;")
  else if p.1 = 38 then (b!"&amp;")
  else if p.1 = 60 then (b!"&lt;")
  else if p.1 = 62 then (b!"&gt;")
  else if p.1 = 9 then (b!"&#x9;")
  else if p.1 = 10 then (b!"&#xA;")
  else if p.1 = 13 then (b!"&#xD;")
  else escDefault p.1 p.2

/-- `(*printer).EscapeString` (`/repo/xml/xml.go` 2010-2047). -/
def escapeString (s : Bytes) : Bytes := (runes s).flatMap escStringRune

end Verif.Xml
