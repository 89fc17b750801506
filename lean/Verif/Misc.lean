import Verif.Strconv

/-
Model of small functions in mpd/mpd.go, mpd/scte35.go and mpd/ptrs.go: profile lists, URL templates,
inherited values, segment base ranges, timescales and SCTE-35 access.
-/
namespace Verif.Misc

open Verif

/-! ### Profiles, mpd.go:1056-1071 -/

/-- `strings.Split(s, ",")` (standard library): the maximal comma-free pieces, in order. -/
def splitComma : Bytes → List Bytes
  | [] => [[]]
  | b :: bs =>
    if b = ch%',' then [] :: splitComma bs
    else
      match splitComma bs with
      | [] => [[b]]                                  -- does not happen
      | p :: ps => (b :: p) :: ps

/-- `ListOfProfilesType.AddProfile`, mpd.go:1061-1072. -/
def addProfile (l profile : Bytes) : Bytes :=
  if l = [] then profile
  else if profile ∈ splitComma l then l
  else l ++ ch%',' :: profile

/-! ### Templates, mpd.go:558-600 -/

/-- `strings.ReplaceAll(s, old, new)` for a non-empty `old` (standard library): leftmost matches, not
overlapping.  The first argument counts bytes of a match still to be skipped. -/
def replGo (old new : Bytes) : Nat → Bytes → Bytes
  | _, [] => []
  | k+1, _ :: s => replGo old new k s
  | 0, b :: s =>
    if old.isPrefixOf (b :: s) then new ++ replGo old new (old.length - 1) s
    else b :: replGo old new 0 s

def replaceAll (s old new : Bytes) : Bytes := replGo old new 0 s

/-- The fields of `SegmentTemplateType` used here. -/
structure Template where
  init : Bytes := []
  media : Bytes := []

/-- The fields of `AdaptationSetType` used by the accessors; content protections by their addresses. -/
structure ASet where
  mimeType : Bytes := []
  codecs : Bytes := []
  contentProtections : List Nat := []
  segmentTemplate : Option Template := none

/-- The fields of `RepresentationType` used by the accessors. -/
structure Rep where
  id : Bytes := []
  bandwidth : Nat := 0
  mimeType : Bytes := []
  codecs : Bytes := []
  contentProtections : List Nat := []
  segmentTemplate : Option Template := none
  parent : Option ASet := none

inductive TErr | parentNotSet | templateNotSet
  deriving DecidableEq, Repr

/-- `RepresentationType.GetSegmentTemplate`, mpd.go:558-563. `none`: nil-pointer panic. -/
def Rep.getSegmentTemplate (r : Rep) : Option (Option Template) :=
  match r.segmentTemplate with
  | none => r.parent.map (·.segmentTemplate)
  | some t => some (some t)

/-- `GetMimeType`, mpd.go:603-608; `none`: nil-pointer panic. -/
def Rep.getMimeType (r : Rep) : Option Bytes :=
  if r.mimeType = [] then r.parent.map (·.mimeType) else some r.mimeType

/-- `GetCodecs`, mpd.go:611-616. -/
def Rep.getCodecs (r : Rep) : Option Bytes :=
  if r.codecs = [] then r.parent.map (·.codecs) else some r.codecs

/-- `GetContentProtections`, mpd.go:619-624. -/
def Rep.getContentProtections (r : Rep) : Option (List Nat) :=
  if r.contentProtections.length = 0 then r.parent.map (·.contentProtections) else some r.contentProtections

/-- The two replacements, mpd.go:578-579 and 596-597. `strconv.Itoa(int(r.Bandwidth))` of a uint32 (with
64-bit `int`) is its decimal form. -/
def Rep.expand (r : Rep) (s : Bytes) : Bytes :=
  replaceAll (replaceAll s (b!"$RepresentationID$") r.id) (b!"$Bandwidth$") (Strconv.formatUint r.bandwidth)

/-- `GetInit`, mpd.go:568-581. Outer `none`: panic. -/
def Rep.getInit (r : Rep) : Option (Except TErr Bytes) :=
  match r.parent with
  | none => some (.error .parentNotSet)
  | some _ =>
    match r.getSegmentTemplate with
    | none => none
    | some none => some (.error .templateNotSet)
    | some (some st) => some (.ok (r.expand st.init))

/-- `GetMedia`, mpd.go:586-600, for a non-nil receiver. -/
def Rep.getMedia (r : Rep) : Option (Except TErr Bytes) :=
  match r.parent with
  | none => some (.error .parentNotSet)
  | some _ =>
    match r.getSegmentTemplate with
    | none => none
    | some none => some (.error .templateNotSet)
    | some (some st) => some (.ok (r.expand st.media))

/-! ### SegmentBase, mpd.go:471-483 and 796-810 -/

/-- The fields of `SegmentBaseType` used here; `initRange` is `Initialization.Range`. -/
structure SegBase where
  timescale : Option Nat := none
  indexRange : Bytes := []
  indexRangeExact : Bool := false
  initRange : Option Bytes := none

/-- `SetSegmentBase`, mpd.go:471-483; uint32 arithmetic wraps. -/
def setSegmentBase (initSize sidxSize : Nat) (exact_ : Bool) : SegBase :=
  let initRange := (b!"0-") ++ Strconv.formatUint (u32 (initSize + (2^32 - 1)))
  let indexRange := Strconv.formatUint initSize ++ ch%'-' ::
    Strconv.formatUint (u32 (u32 (initSize + sidxSize) + (2^32 - 1)))
  { indexRange := indexRange, initRange := some initRange, indexRangeExact := exact_ }

/-- `GetTimescale`, mpd.go:796-801. -/
def SegBase.getTimescale (s : SegBase) : Nat := s.timescale.getD 1

/-- `SetTimescale`, mpd.go:804-809: the assignment of nil is overwritten by the last statement. -/
def SegBase.setTimescale (s : SegBase) (t : Nat) : SegBase :=
  let s := if t = 1 then { s with timescale := none } else s
  { s with timescale := some t }

/-! ### SCTE-35, scte35.go:556-579 -/

/-- `IsSCTE35`, scte35.go:558-564, with the constants of scte35.go:74-83. -/
def isSCTE35 (schemeIdUri : Bytes) : Bool :=
  schemeIdUri == (b!"urn:scte:scte35:2013:xml") || schemeIdUri == (b!"urn:scte:scte35:2014:xml+bin") ||
    schemeIdUri == (b!"urn:scte:scte35:2013:bin")

/-- An event's SCTE-35 content: optional Signal with optional section, optional direct section; sections
by address. -/
structure Event where
  signal : Option (Option Nat) := none
  section_ : Option Nat := none

/-- `SpliceInfo`, scte35.go:570-575. -/
def Event.spliceInfo (e : Event) : Option Nat :=
  match e.signal with
  | some (some s) => some s
  | _ => e.section_

/-! ### ptrs.go -/

/-- `Seconds2DurPtr`, ptrs.go:14-17: int64 product. -/
def seconds2Dur (seconds : Int) : Int := i64 (i64 seconds * 1000000000)

end Verif.Misc
