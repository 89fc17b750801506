import Verif.Build
import Verif.KRfl

/-!
C61: SCTE-35 elements made with the constructors are written in the SCTE-35 namespace and read back.
-/
namespace Verif.Bind

open Verif Verif.Xml Verif.FloatText

/-! ### Model: the constructors -/

/-- `canonicalSCTE35Name` (`/repo/mpd/scte35.go` 475-477). -/
def canonicalName (loc : Bytes) : Name := ⟨scte35NS, loc⟩

/-- `&T{XMLName: canonicalSCTE35Name(loc)}`. -/
def scteNew (t : Typ) (loc : Bytes) : Val := t.sch.zero.withName (canonicalName loc)

/-- `NewSignal` (`/repo/mpd/scte35.go` 481-483). -/
def newSignal : Val := scteNew tSignalType (b!"Signal")
/-- `NewSpliceInfoSection` (`/repo/mpd/scte35.go` 487-489). -/
def newSpliceInfoSection : Val := scteNew tSpliceInfoSectionType (b!"SpliceInfoSection")
/-- `NewBinary` (`/repo/mpd/scte35.go` 493-495). -/
def newBinary (v : Bytes) : Val := assign tBinaryType.sch .chardata (b!"Value") (.str v) (scteNew tBinaryType (b!"Binary"))
/-- `NewSpliceNull` (`/repo/mpd/scte35.go` 498-500). -/
def newSpliceNull : Val := scteNew tSpliceNullType (b!"SpliceNull")
/-- `NewSpliceSchedule` (`/repo/mpd/scte35.go` 503-505). -/
def newSpliceSchedule : Val := scteNew tSpliceScheduleType (b!"SpliceSchedule")
/-- `NewSpliceInsert` (`/repo/mpd/scte35.go` 508-510). -/
def newSpliceInsert : Val := scteNew tSpliceInsertType (b!"SpliceInsert")
/-- `NewTimeSignal` (`/repo/mpd/scte35.go` 513-515). -/
def newTimeSignal : Val := scteNew tTimeSignalType (b!"TimeSignal")
/-- `NewBandwidthReservation` (`/repo/mpd/scte35.go` 519-521). -/
def newBandwidthReservation : Val := scteNew tBandwidthReservationType (b!"BandwidthReservation")
/-- `NewPrivateCommand` (`/repo/mpd/scte35.go` 525-527). -/
def newPrivateCommand (identifier : Nat) : Val :=
  assign tPrivateCommandType.sch .attr (b!"identifier") (.uint identifier) (scteNew tPrivateCommandType (b!"PrivateCommand"))
/-- `NewSpliceTime` (`/repo/mpd/scte35.go` 530-532). -/
def newSpliceTime : Val := scteNew tSpliceTimeType (b!"SpliceTime")
/-- `NewBreakDuration` (`/repo/mpd/scte35.go` 536-542). -/
def newBreakDuration (autoReturn : Bool) (duration : Nat) : Val :=
  assign tBreakDurationType.sch .attr (b!"duration") (.uint duration)
    (assign tBreakDurationType.sch .attr (b!"autoReturn") (.bool autoReturn) (scteNew tBreakDurationType (b!"BreakDuration")))
/-- `NewSegmentationDescriptor` (`/repo/mpd/scte35.go` 546-548). -/
def newSegmentationDescriptor : Val := scteNew tSegmentationDescriptorType (b!"SegmentationDescriptor")
/-- `NewSegmentationUpid` (`/repo/mpd/scte35.go` 552-554). -/
def newSegmentationUpid (v : Bytes) : Val :=
  assign tSegmentationUpidType.sch .chardata (b!"Value") (.str v) (scteNew tSegmentationUpidType (b!"SegmentationUpid"))

/-! ### Specification -/

mutual
/-- The fields that hold types that take their names from `XMLName`, with these types, in a type. -/
def namedFields (fi : Option FInfo) : Sch → List (FInfo × Sch)
  | .ptr s => namedFields fi s
  | .slice s => namedFields fi s
  | .struct tn xn infos subs =>
    (match fi with
      | some f => if tagless xn then [(f, .struct tn xn infos subs)] else []
      | none => []) ++ namedFieldss infos subs
  | _ => []
/-- The same for all fields. -/
def namedFieldss : List FInfo → List Sch → List (FInfo × Sch)
  | f :: fs, s :: ss => namedFields (some f) s ++ namedFieldss fs ss
  | _, _ => []
end

/-- The field with a given name. -/
def fieldIn (t : Typ) (loc : Bytes) : FInfo := fieldOf (fieldAt t.sch .elem loc)

/-! ### Proof -/

theorem named_built {fi : Option FInfo} {s : Sch} {n : Name} (hs : s.isRecord = true) (h : namedOk fi s n = true) :
    Built fi s (s.zero.withName n) := by
  obtain ⟨tn, xn, e⟩ := isRecord_eta s hs
  rw [e] at h ⊢
  exact .named n h

theorem namedFields_ok : ((namedFields none tMPD.sch).all fun p => p.2.isRecord && namedOk (some p.1) p.2 (canonicalName p.1.loc)) =
    true := by decide +kernel

theorem assign_uint {fi s w m loc k n} (hs : s.isRecord = true) (h : Built fi s w)
    (hf : (fieldAt s m loc).map (·.2) = some (.simple (.uint k))) (hn : n < 2 ^ k) : Built fi s (assign s m loc (.uint n) w) :=
  assign_leaf hs h hf (by simpa [KindOk] using hn) (by simp [LeafFine])

/-! ### Theorems -/

/-- C61: a value of any of the types of SCTE-35, with the name of the field in the SCTE-35 namespace, can be used in any field. -/
theorem C61_new (f : FInfo) (s : Sch) (h : (f, s) ∈ namedFields none tMPD.sch) :
    Built (some f) s (s.zero.withName (canonicalName f.loc)) := by
  have := List.all_eq_true.mp namedFields_ok _ h
  simp only [Bool.and_eq_true] at this
  exact named_built this.1 this.2

/-- The names of these fields. -/
theorem namedFields_locs : ((namedFields none tMPD.sch).map (·.1.loc)).eraseDups =
    [b!"Signal", b!"SpliceInfoSection", b!"Ext", b!"EncryptedPacket", b!"SpliceNull", b!"SpliceSchedule", b!"Event",
      b!"Program", b!"Component", b!"BreakDuration", b!"SpliceInsert", b!"SpliceTime", b!"TimeSignal",
      b!"BandwidthReservation", b!"PrivateCommand", b!"AvailDescriptor", b!"DTMFDescriptor", b!"SegmentationDescriptor",
      b!"DeliveryRestrictions", b!"SegmentationUpid", b!"TimeDescriptor", b!"AudioDescriptor", b!"AudioChannel",
      b!"PrivateDescriptor", b!"Binary"] := by
  decide +kernel

/-- C61: what the constructors give can be used in the fields of its type, with any texts of XML characters and any numbers. -/
theorem C61_constructors (text : Bytes) (ht : IsXmlText text) (n32 n64 : Nat) (h32 : n32 < 2 ^ 32) (h64 : n64 < 2 ^ 64) (b : Bool) :
    Built (some (fieldIn tEventType (b!"Signal"))) tSignalType.sch newSignal ∧
    Built (some (fieldIn tEventType (b!"SpliceInfoSection"))) tSpliceInfoSectionType.sch newSpliceInfoSection ∧
    Built (some (fieldIn tSignalType (b!"SpliceInfoSection"))) tSpliceInfoSectionType.sch newSpliceInfoSection ∧
    Built (some (fieldIn tSpliceInfoSectionType (b!"SpliceNull"))) tSpliceNullType.sch newSpliceNull ∧
    Built (some (fieldIn tSpliceInfoSectionType (b!"SpliceSchedule"))) tSpliceScheduleType.sch newSpliceSchedule ∧
    Built (some (fieldIn tSpliceInfoSectionType (b!"SpliceInsert"))) tSpliceInsertType.sch newSpliceInsert ∧
    Built (some (fieldIn tSpliceInfoSectionType (b!"TimeSignal"))) tTimeSignalType.sch newTimeSignal ∧
    Built (some (fieldIn tSpliceInfoSectionType (b!"BandwidthReservation"))) tBandwidthReservationType.sch newBandwidthReservation ∧
    Built (some (fieldIn tSpliceInfoSectionType (b!"SegmentationDescriptor"))) tSegmentationDescriptorType.sch newSegmentationDescriptor ∧
    Built (some (fieldIn tTimeSignalType (b!"SpliceTime"))) tSpliceTimeType.sch newSpliceTime ∧
    Built (some (fieldIn tSpliceInsertProgramType (b!"SpliceTime"))) tSpliceTimeType.sch newSpliceTime ∧
    Built (some (fieldIn tSpliceInsertComponentType (b!"SpliceTime"))) tSpliceTimeType.sch newSpliceTime ∧
    Built (some (fieldIn tSignalType (b!"Binary"))) tBinaryType.sch (newBinary text) ∧
    Built (some (fieldIn tSpliceInfoSectionType (b!"PrivateCommand"))) tPrivateCommandType.sch (newPrivateCommand n32) ∧
    Built (some (fieldIn tSpliceInsertType (b!"BreakDuration"))) tBreakDurationType.sch (newBreakDuration b n64) ∧
    Built (some (fieldIn tSpliceScheduleEventType (b!"BreakDuration"))) tBreakDurationType.sch (newBreakDuration b n64) ∧
    Built (some (fieldIn tSegmentationDescriptorType (b!"SegmentationUpid"))) tSegmentationUpidType.sch (newSegmentationUpid text) := by
  refine ⟨?_, ?_, ?_, ?_, ?_, ?_, ?_, ?_, ?_, ?_, ?_, ?_, ?_, ?_, ?_, ?_, ?_⟩
  · exact named_built (by decide +kernel) (by decide +kernel)
  · exact named_built (by decide +kernel) (by decide +kernel)
  · exact named_built (by decide +kernel) (by decide +kernel)
  · exact named_built (by decide +kernel) (by decide +kernel)
  · exact named_built (by decide +kernel) (by decide +kernel)
  · exact named_built (by decide +kernel) (by decide +kernel)
  · exact named_built (by decide +kernel) (by decide +kernel)
  · exact named_built (by decide +kernel) (by decide +kernel)
  · exact named_built (by decide +kernel) (by decide +kernel)
  · exact named_built (by decide +kernel) (by decide +kernel)
  · exact named_built (by decide +kernel) (by decide +kernel)
  · exact named_built (by decide +kernel) (by decide +kernel)
  · exact assign_str (by decide +kernel) (named_built (by decide +kernel) (by decide +kernel)) (by krfl) ht
  · exact assign_uint (by decide +kernel) (named_built (by decide +kernel) (by decide +kernel)) (by krfl) h32
  · exact assign_uint (by decide +kernel) (assign_bool (by decide +kernel) (named_built (by decide +kernel) (by decide +kernel))
      (by krfl)) (by krfl) h64
  · exact assign_uint (by decide +kernel) (assign_bool (by decide +kernel) (named_built (by decide +kernel) (by decide +kernel))
      (by krfl)) (by krfl) h64
  · exact assign_str (by decide +kernel) (named_built (by decide +kernel) (by decide +kernel)) (by krfl) ht

/-- C61, in part: a manifest with SCTE-35 elements, built with the constructors and by naming the elements that have no
constructor, is written without error and read back as the same; each of these elements is found in the SCTE-35 namespace.
Missing: elements made without a name, for which this is false (`C61_refuted`). -/
theorem C61_namespace_partial (io : FloatIO) (hio : GoFloats io) (v : Val) (h : Built none tMPD.sch v) (indent : Bytes)
    (hind : IsWs indent) (hdr : Bool) : ∃ doc w, writeDoc io tMPD.sch v indent hdr = .ok doc ∧
      unmarshalDoc io tMPD.sch doc = .ok w ∧ Returned indent tMPD.sch v w ∧ xnames tMPD.sch w = xnames tMPD.sch v ∧
      ∀ n ∈ xnames tMPD.sch w, n.space = scte35NS := by
  obtain ⟨doc, w, h1, h2, h3⟩ := C58_built io hio v h indent hind hdr
  obtain ⟨u, h4, h5, h6⟩ := h3
  have hx : xnames tMPD.sch w = xnames tMPD.sch v := by
    rw [loose_xnames _ u w h5, back_xnames _ v u h4 fun n hn => ⟨?_, (h.sound.xn n hn).2⟩]
    rw [(h.sound.xn n hn).1]
    decide
  exact ⟨doc, w, h1, h2, ⟨u, h4, h5, h6⟩, hx, fun n hn => (h.sound.xn n (by rw [← hx]; exact hn)).1⟩

/-! ### A splice insert -/

/-- A manifest with one event. -/
def eventVal (signal : Val) : Val :=
  appendPeriod (newMPD (b!"static")) (push tPeriod.sch (b!"EventStream")
    (push tEventStreamType.sch (b!"Event") (assign tEventType.sch .elem (b!"Signal") (.ptr (some signal)) tEventType.sch.zero)
      tEventStreamType.sch.zero) newPeriod)

/-- A signal with a splice insert whose program is `program` with the splice time. -/
def insertVal (program : Val) : Val :=
  assign tSignalType.sch .elem (b!"SpliceInfoSection") (.ptr (some (assign tSpliceInfoSectionType.sch .elem (b!"SpliceInsert")
    (.ptr (some (assign tSpliceInsertType.sch .elem (b!"Program") (.ptr (some (assign tSpliceInsertProgramType.sch .elem
      (b!"SpliceTime") (.ptr (some newSpliceTime)) program))) newSpliceInsert))) newSpliceInfoSection))) newSignal

/-- With the name set. -/
example (io : FloatIO) : writeDoc io tMPD.sch (eventVal (insertVal (scteNew tSpliceInsertProgramType (b!"Program")))) [] false =
    .ok (b!"<MPD xmlns=\"urn:mpeg:dash:schema:mpd:2011\" profiles=\"\" type=\"static\"><Period><EventStream schemeIdUri=\"\"><Event presentationTime=\"0\"><Signal xmlns=\"http://www.scte.org/schemas/35\"><SpliceInfoSection><SpliceInsert><Program><SpliceTime></SpliceTime></Program></SpliceInsert></SpliceInfoSection></Signal></Event></EventStream></Period></MPD>") := by
  krfl

theorem event_built {signal : Val} (h : Built (some (fieldIn tEventType (b!"Signal"))) tSignalType.sch signal) :
    Built none tMPD.sch (eventVal signal) := by
  obtain ⟨xv, vs, rfl⟩ := built_struct (s := tSignalType.sch) (by decide +kernel) h
  unfold eventVal appendPeriod
  refine push_built (s := tMPD.sch) (f := fPeriod) (t := tPeriod.sch) (by decide +kernel)
    (mpdNew_built (.new _ (by decide))) (by krfl) ?_ (by decide +kernel)
  refine push_built (s := tPeriod.sch) (f := fieldIn tPeriod (b!"EventStream")) (t := tEventStreamType.sch) (by decide +kernel)
    (new_built (s := tPeriod.sch) (by decide +kernel) (by decide +kernel)) (by krfl) ?_ (by decide +kernel)
  refine push_built (s := tEventStreamType.sch) (f := fieldIn tEventStreamType (b!"Event")) (t := tEventType.sch) (by decide +kernel)
    (new_built (s := tEventStreamType.sch) (by decide +kernel) (by decide +kernel)) (by krfl) ?_ (by decide +kernel)
  exact assign_built (s := tEventType.sch) (f := fieldIn tEventType (b!"Signal")) (t := .ptr tSignalType.sch) (by decide +kernel)
    (new_built (s := tEventType.sch) (by decide +kernel) (by decide +kernel)) (by krfl) (.ptr h rfl)

theorem insert_built : Built (some (fieldIn tEventType (b!"Signal"))) tSignalType.sch
    (insertVal (scteNew tSpliceInsertProgramType (b!"Program"))) := by
  have hc := C61_constructors [] (by decide) 0 0 (by decide) (by decide) false
  refine assign_built (f := fieldIn tSignalType (b!"SpliceInfoSection")) (t := .ptr tSpliceInfoSectionType.sch) (by decide +kernel)
    hc.1 (by krfl) (.ptr ?_ (by krfl))
  refine assign_built (f := fieldIn tSpliceInfoSectionType (b!"SpliceInsert")) (t := .ptr tSpliceInsertType.sch) (by decide +kernel)
    hc.2.2.1 (by krfl) (.ptr ?_ (by krfl))
  refine assign_built (f := fieldIn tSpliceInsertType (b!"Program")) (t := .ptr tSpliceInsertProgramType.sch) (by decide +kernel)
    hc.2.2.2.2.2.1 (by krfl) (.ptr ?_ (by krfl))
  exact assign_built (f := fieldIn tSpliceInsertProgramType (b!"SpliceTime")) (t := .ptr tSpliceTimeType.sch) (by decide +kernel)
    (named_built (by decide +kernel) (by decide +kernel)) (by krfl) (.ptr hc.2.2.2.2.2.2.2.2.2.2.1 (by krfl))

example : Built none tMPD.sch (eventVal (insertVal (scteNew tSpliceInsertProgramType (b!"Program")))) := event_built insert_built

/-- The document written for a splice insert whose program is a struct literal: there is no constructor for it. -/
@[irreducible] def literalDoc : Bytes := b!"<MPD xmlns=\"urn:mpeg:dash:schema:mpd:2011\" profiles=\"\" type=\"static\"><Period><EventStream schemeIdUri=\"\"><Event presentationTime=\"0\"><Signal xmlns=\"http://www.scte.org/schemas/35\"><SpliceInfoSection><SpliceInsert><Program xmlns=\"\"><SpliceTime></SpliceTime></Program></SpliceInsert></SpliceInfoSection></Signal></Event></EventStream></Period></MPD>"

/-- C61 is false of elements that have no constructor and are made with a struct literal: `Program` is written with `xmlns=""`,
which takes it out of the SCTE-35 namespace, and with it the `SpliceTime` that a constructor has made. -/
theorem C61_refuted : ∃ (io : FloatIO) (v w : Val), v = eventVal (insertVal tSpliceInsertProgramType.sch.zero) ∧
    writeDoc io tMPD.sch v [] false = .ok literalDoc ∧ unmarshalDoc io tMPD.sch literalDoc = .ok w ∧
    canonicalName (b!"SpliceTime") ∈ xnames tMPD.sch v ∧
    xnames tMPD.sch w = [canonicalName (b!"Signal"), canonicalName (b!"SpliceInfoSection"), canonicalName (b!"SpliceInsert"),
      ⟨[], b!"Program"⟩, ⟨[], b!"SpliceTime"⟩] := by
  refine ⟨exIO, _, valOf exIO literalDoc, rfl, ?_, ?_, ?_, ?_⟩
  · unfold literalDoc; krfl
  · refine valOf_ok exIO _ ?_
    unfold literalDoc
    decide +kernel
  · decide +kernel
  · unfold literalDoc
    decide +kernel

/-- Directly in an `Event`, an element made with a struct literal is in the namespace of the manifest, as the comment
(`/repo/mpd/scte35.go` 34-38) says. -/
example : xnames tMPD.sch (valOf exIO (outOf exIO (eventVal tSignalType.sch.zero) [])) =
    [⟨b!"urn:mpeg:dash:schema:mpd:2011", b!"Signal"⟩] := by decide +kernel

end Verif.Bind
