import Verif.Schema

/-!
The struct types of the manifest reachable from `MPD` (`/repo/mpd/mpd.go`, `/repo/mpd/scte35.go`), written by `tools/gen_schema.py` from the Go
source: every field with its name, its `xml` tag and its type, in order.  Named types
without methods of their own for XML are replaced by what they are (`AnyURI` is a string).
-/
namespace Verif.Bind

/-- A named field with its tag and type. -/
def fld (name tag : Bytes) (exported : Bool) (t : Typ) : Decl × Typ := (⟨name, false, exported, tag⟩, t)
/-- An embedded field. -/
def emb (name tag : Bytes) (t : Typ) : Decl × Typ := (⟨name, true, true, tag⟩, t)
/-- A struct type. -/
def mkStruct (name : Bytes) (fs : List (Decl × Typ)) : Typ := .struct name (fs.map (·.1)) (fs.map (·.2))

/-- `ProgramInformationType` (`/repo/mpd/mpd.go` 943-949). -/
def tProgramInformationType : Typ := mkStruct b!"ProgramInformationType" [
  fld b!"Lang" b!"lang,attr,omitempty" true (.simple .str),
  fld b!"MoreInformationURL" b!"moreInformationURL,attr,omitempty" true (.simple .str),
  fld b!"Title" b!"Title,omitempty" true (.simple .str),
  fld b!"Source" b!"Source,omitempty" true (.simple .str),
  fld b!"Copyright" b!"Copyright,omitempty" true (.simple .str)]

/-- `BaseURLType` (`/repo/mpd/mpd.go` 925-933). -/
def tBaseURLType : Typ := mkStruct b!"BaseURLType" [
  fld b!"ServiceLocation" b!"serviceLocation,attr,omitempty" true (.simple .str),
  fld b!"ByteRange" b!"byteRange,attr,omitempty" true (.simple .str),
  fld b!"AvailabilityTimeOffset" b!"availabilityTimeOffset,attr,omitempty" true (.simple .floatInf),
  fld b!"AvailabilityTimeComplete" b!"availabilityTimeComplete,attr" true (.ptr (.simple .bool)),
  fld b!"TimeShiftBufferDepth" b!"timeShiftBufferDepth,attr" true (.ptr (.simple .duration)),
  fld b!"RangeAccess" b!"rangeAccess,attr,omitempty" true (.simple .bool),
  fld b!"Value" b!",chardata" true (.simple .str)]

/-- `LocationType` (`/repo/mpd/mpd.go` 147-150). -/
def tLocationType : Typ := mkStruct b!"LocationType" [
  fld b!"ServiceLocation" b!"serviceLocation,attr,omitempty" true (.simple .str),
  fld b!"Value" b!",chardata" true (.simple .str)]

/-- `PatchLocationType` (`/repo/mpd/mpd.go` 139-144). -/
def tPatchLocationType : Typ := mkStruct b!"PatchLocationType" [
  fld b!"XMLName" b!"PatchLocation" true (.name),
  fld b!"ServiceLocation" b!"serviceLocation,attr,omitempty" true (.simple .str),
  fld b!"Ttl" b!"ttl,attr,omitempty" true (.simple (.float 64)),
  fld b!"Value" b!",chardata" true (.simple .str)]

/-- `UrlQueryInfoType` (`/repo/mpd/up.go` 11-19). -/
def tUrlQueryInfoType : Typ := mkStruct b!"UrlQueryInfoType" [
  fld b!"QueryTemplate" b!"queryTemplate,attr,omitempty" true (.simple .str),
  fld b!"UseMPDUrlQuery" b!"useMPDUrlQuery,attr,omitempty" true (.simple .bool),
  fld b!"QueryString" b!"queryString,attr,omitempty" true (.simple .str),
  fld b!"XlinkHref" b!"http://www.w3.org/1999/xlink xlink:href,attr,omitempty" true (.simple .str),
  fld b!"XlinkActuate" b!"http://www.w3.org/1999/xlink xlink:actuate,attr,omitempty" true (.simple .str),
  fld b!"XlinkType" b!"http://www.w3.org/1999/xlink xlink:type,attr,omitempty" true (.simple .str),
  fld b!"XlinkShow" b!"http://www.w3.org/1999/xlink xlink:show,attr,omitempty" true (.simple .str)]

/-- `ExtendedUrlInfoType` (`/repo/mpd/up.go` 23-29). -/
def tExtendedUrlInfoType : Typ := mkStruct b!"ExtendedUrlInfoType" [
  emb b!"UrlQueryInfoType" b!"" (tUrlQueryInfoType),
  fld b!"IncludeInRequests" b!"includeInRequests,attr,omitempty" true (.simple .str),
  fld b!"HeaderParamSource" b!"headerParamSource,attr,omitempty" true (.simple .str),
  fld b!"SameOriginPolicy" b!"sameOriginPolicy,attr,omitempty" true (.simple .bool),
  fld b!"Header" b!"header,attr,omitempty" true (.simple .str)]

/-- `SCTE214ContentIdentifierType` (`/repo/mpd/scte214.go` 93-97). -/
def tSCTE214ContentIdentifierType : Typ := mkStruct b!"SCTE214ContentIdentifierType" [
  fld b!"Type" b!"type,attr" true (.simple .str),
  fld b!"Value" b!"value,attr" true (.simple .str),
  fld b!"AnyAttrs" b!",any,attr" true (.slice (.attr))]

/-- `DescriptorType` (`/repo/mpd/mpd.go` 952-960). -/
def tDescriptorType : Typ := mkStruct b!"DescriptorType" [
  fld b!"SchemeIdUri" b!"schemeIdUri,attr,omitempty" true (.simple .str),
  fld b!"Value" b!"value,attr,omitempty" true (.simple .str),
  fld b!"Id" b!"id,attr,omitempty" true (.simple .str),
  fld b!"UrlQueryInfo" b!"urn:mpeg:dash:schema:urlparam:2014 up:UrlQueryInfo,omitempty" true (.ptr (tUrlQueryInfoType)),
  fld b!"ExtUrlQueryInfo" b!"urn:mpeg:dash:schema:urlparam:2016 up:ExtUrlQueryInfo,omitempty" true (.ptr (tExtendedUrlInfoType)),
  fld b!"SCTE214ContentIdentifiers" b!"urn:scte:dash:scte214-extensions scte214:ContentIdentifier" true (.slice (.ptr (tSCTE214ContentIdentifierType)))]

/-- `UIntPairsWithIDType` (`/repo/mpd/mpd.go` 335-339). -/
def tUIntPairsWithIDType : Typ := mkStruct b!"UIntPairsWithIDType" [
  fld b!"XMLName" b!"UIntPairsWithID" true (.name),
  fld b!"Type" b!"type,attr,omitempty" true (.simple .str),
  emb b!"UIntVectorType" b!"" (.ptr (.simple .str))]

/-- `LatencyType` (`/repo/mpd/mpd.go` 293-300). -/
def tLatencyType : Typ := mkStruct b!"LatencyType" [
  fld b!"XMLName" b!"Latency" true (.name),
  fld b!"ReferenceId" b!"referenceId,attr" true (.simple (.uint 32)),
  fld b!"Target" b!"target,attr" true (.ptr (.simple (.uint 32))),
  fld b!"Max" b!"max,attr" true (.ptr (.simple (.uint 32))),
  fld b!"Min" b!"min,attr" true (.ptr (.simple (.uint 32))),
  fld b!"QualityLatencies" b!"QualityLatency" true (.slice (.ptr (tUIntPairsWithIDType)))]

/-- `PlaybackRateType` (`/repo/mpd/mpd.go` 303-307). -/
def tPlaybackRateType : Typ := mkStruct b!"PlaybackRateType" [
  fld b!"XMLName" b!"PlaybackRate" true (.name),
  fld b!"Max" b!"max,attr,omitempty" true (.simple (.float 64)),
  fld b!"Min" b!"min,attr,omitempty" true (.simple (.float 64))]

/-- `OperatingQualityType` (`/repo/mpd/mpd.go` 310-318). -/
def tOperatingQualityType : Typ := mkStruct b!"OperatingQualityType" [
  fld b!"XMLName" b!"OperatingQuality" true (.name),
  fld b!"MediaType" b!"mediaType,attr,omitempty" true (.simple .str),
  fld b!"Min" b!"min,attr,omitempty" true (.simple (.uint 32)),
  fld b!"Max" b!"max,attr,omitempty" true (.simple (.uint 32)),
  fld b!"Target" b!"target,attr,omitempty" true (.simple (.uint 32)),
  fld b!"Type" b!"type,attr,omitempty" true (.simple .str),
  fld b!"MaxDifference" b!"maxDifference,attr,omitempty" true (.simple (.uint 32))]

/-- `OperatingBandwidthType` (`/repo/mpd/mpd.go` 321-327). -/
def tOperatingBandwidthType : Typ := mkStruct b!"OperatingBandwidthType" [
  fld b!"XMLName" b!"OperatingBandwidth" true (.name),
  fld b!"MediaType" b!"mediaType,attr,omitempty" true (.simple .str),
  fld b!"Min" b!"min,attr,omitempty" true (.simple (.uint 32)),
  fld b!"Max" b!"max,attr,omitempty" true (.simple (.uint 32)),
  fld b!"Target" b!"target,attr,omitempty" true (.simple (.uint 32))]

/-- `ContentSteeringType` (`/repo/mpd/mpd.go` 999-1004). -/
def tContentSteeringType : Typ := mkStruct b!"ContentSteeringType" [
  fld b!"DefaultServiceLocation" b!"defaultServiceLocation,attr,omitempty" true (.simple .str),
  fld b!"QueryBeforeStart" b!"queryBeforeStart,attr,omitempty" true (.simple .bool),
  fld b!"ClientRequirement" b!"clientRequirement,attr,omitempty" true (.simple .bool),
  fld b!"Value" b!",chardata" true (.simple .str)]

/-- `CMCDParameterType` (`/repo/mpd/mpd.go` 1007-1014). -/
def tCMCDParameterType : Typ := mkStruct b!"CMCDParameterType" [
  fld b!"Version" b!"version,attr,omitempty" true (.simple (.uint 32)),
  fld b!"Mode" b!"mode,attr,omitempty" true (.simple .str),
  fld b!"IncludeInRequests" b!"includeInRequests,attr,omitempty" true (.ptr (.slice (.simple .str))),
  fld b!"Keys" b!"keys,attr" true (.ptr (.slice (.simple .str))),
  fld b!"ContentID" b!"contentID,attr,omitempty" true (.simple .str),
  fld b!"SessionID" b!"sessionID,attr,omitempty" true (.simple .str)]

/-- `ClientDataReportingType` (`/repo/mpd/mpd.go` 1030-1035). -/
def tClientDataReportingType : Typ := mkStruct b!"ClientDataReportingType" [
  fld b!"SchemeIdUri" b!"schemeIdUri,attr" true (.simple .str),
  fld b!"ServiceLocations" b!"serviceLocations,attr,omitempty" true (.ptr (.simple .str)),
  fld b!"AdaptationSets" b!"adaptationSets,attr,omitempty" true (.ptr (.simple .str)),
  fld b!"CMCDParameters" b!"CMCDParameters" true (.slice (.ptr (tCMCDParameterType)))]

/-- `PlaybackRestrictionsType` (`/repo/mpd/mpd.go` 330-332). -/
def tPlaybackRestrictionsType : Typ := mkStruct b!"PlaybackRestrictionsType" [
  fld b!"SkipAfter" b!"skipAfter,attr,omitempty" true (.simple .duration)]

/-- `ServiceDescriptionType` (`/repo/mpd/mpd.go` 279-290). -/
def tServiceDescriptionType : Typ := mkStruct b!"ServiceDescriptionType" [
  fld b!"XMLName" b!"ServiceDescription" true (.name),
  fld b!"Id" b!"id,attr" true (.simple (.uint 32)),
  fld b!"Scopes" b!"Scope" true (.slice (.ptr (tDescriptorType))),
  fld b!"Latencies" b!"Latency" true (.slice (.ptr (tLatencyType))),
  fld b!"PlaybackRates" b!"PlaybackRate" true (.slice (.ptr (tPlaybackRateType))),
  fld b!"OperatingQualities" b!"OperatingQuality" true (.slice (.ptr (tOperatingQualityType))),
  fld b!"OperatingBandwidths" b!"OperatingBandwidth" true (.slice (.ptr (tOperatingBandwidthType))),
  fld b!"ContentSteerings" b!"ContentSteering" true (.slice (.ptr (tContentSteeringType))),
  fld b!"ClientDataReporting" b!"ClientDataReporting" true (.slice (.ptr (tClientDataReportingType))),
  fld b!"PlaybackRestrictions" b!"PlaybackRestrictions" true (.slice (.ptr (tPlaybackRestrictionsType)))]

/-- `PsshType` (`/repo/mpd/mpd.go` 649-651). -/
def tPsshType : Typ := mkStruct b!"PsshType" [
  fld b!"Value" b!",chardata" true (.simple .str)]

/-- `MSProType` (`/repo/mpd/mpd.go` 654-656). -/
def tMSProType : Typ := mkStruct b!"MSProType" [
  fld b!"Value" b!",chardata" true (.simple .str)]

/-- `LaURLType` (`/repo/mpd/mpd.go` 659-662). -/
def tLaURLType : Typ := mkStruct b!"LaURLType" [
  fld b!"LicenseType" b!"licenseType,attr,omitempty" true (.simple .str),
  fld b!"Value" b!",chardata" true (.simple .str)]

/-- `AuthzURLType` (`/repo/mpd/mpd.go` 665-668). -/
def tAuthzURLType : Typ := mkStruct b!"AuthzURLType" [
  fld b!"AuthzType" b!"authzType,attr,omitempty" true (.simple .str),
  fld b!"Value" b!",chardata" true (.simple .str)]

/-- `CerturlType` (`/repo/mpd/mpd.go` 671-674). -/
def tCerturlType : Typ := mkStruct b!"CerturlType" [
  fld b!"CertType" b!"certType,attr,omitempty" true (.simple .str),
  fld b!"Value" b!",chardata" true (.simple .str)]

/-- `MarlinContentId` (`/repo/mpd/mpd.go` 682-684). -/
def tMarlinContentId : Typ := mkStruct b!"MarlinContentId" [
  fld b!"Value" b!",chardata" true (.simple .str)]

/-- `MarlinContentIds` (`/repo/mpd/mpd.go` 677-679). -/
def tMarlinContentIds : Typ := mkStruct b!"MarlinContentIds" [
  fld b!"Cids" b!"urn:marlin:mas:1-0:services:schemas:mpd mas:MarlinContentId" true (.slice (.ptr (tMarlinContentId)))]

/-- `ContentProtectionType` (`/repo/mpd/mpd.go` 627-646). -/
def tContentProtectionType : Typ := mkStruct b!"ContentProtectionType" [
  fld b!"XMLName" b!"ContentProtection" true (.name),
  fld b!"Robustness" b!"robustness,attr,omitempty" true (.simple .str),
  fld b!"RefId" b!"refId,attr,omitempty" true (.simple .str),
  fld b!"Ref" b!"ref,attr,omitempty" true (.simple .str),
  fld b!"DefaultKID" b!"urn:mpeg:cenc:2013 cenc:default_KID,attr,omitempty" true (.simple .str),
  fld b!"Pssh" b!"urn:mpeg:cenc:2013 cenc:pssh,omitempty" true (.ptr (tPsshType)),
  fld b!"MSPro" b!"urn:microsoft:playready mspr:pro,omitempty" true (.ptr (tMSProType)),
  fld b!"LaURL" b!"https://dashif.org/CPS dashif:Laurl,omitempty" true (.ptr (tLaURLType)),
  fld b!"AuthzURL" b!"https://dashif.org/CPS dashif:Authzurl,omitempty" true (.ptr (tAuthzURLType)),
  fld b!"Certurls" b!"https://dashif.org/CPS dashif:Certurl,omitempty" true (.slice (tCerturlType)),
  fld b!"MarlinContentIds" b!"urn:marlin:mas:1-0:services:schemas:mpd mas:MarlinContentIds,omitempty" true (.ptr (tMarlinContentIds)),
  emb b!"DescriptorType" b!"" (tDescriptorType)]

/-- `SelectionType` (`/repo/mpd/mpd.go` 251-255). -/
def tSelectionType : Typ := mkStruct b!"SelectionType" [
  fld b!"DataEncoding" b!"dataEncoding,attr,omitempty" true (.simple .str),
  fld b!"Parameter" b!"parameter,attr" true (.simple .str),
  fld b!"Data" b!"data,attr,omitempty" true (.simple .str)]

/-- `SelectionInfoType` (`/repo/mpd/mpd.go` 244-248). -/
def tSelectionInfoType : Typ := mkStruct b!"SelectionInfoType" [
  fld b!"SelectionInfo" b!"selectionInfo,attr,omitempty" true (.simple .str),
  fld b!"ContactURL" b!"contactURL,attr" true (.simple .str),
  fld b!"Selection" b!"Selection" true (.slice (.ptr (tSelectionType)))]

/-- `AlternativeMPDEventType` (`/repo/mpd/mpd.go` 1038-1046). -/
def tAlternativeMPDEventType : Typ := mkStruct b!"AlternativeMPDEventType" [
  fld b!"Uri" b!"uri,attr" true (.simple .str),
  fld b!"EarliestResolutionTimeOffset" b!"earliestResolutionTimeOffset,attr,omitempty" true (.simple .floatInf),
  fld b!"MaxDuration" b!"maxDuration,attr,omitempty" true (.simple (.uint 64)),
  fld b!"ExecuteOnce" b!"executeOnce,attr,omitempty" true (.simple .bool),
  fld b!"NoJump" b!"noJump,attr,omitempty" true (.simple (.int 32)),
  fld b!"SkipAfter" b!"skipAfter,attr,omitempty" true (.simple .duration),
  fld b!"SupplementalProperty" b!"SupplementalProperty" true (.slice (.ptr (tDescriptorType)))]

/-- `AlternativeMPDReplaceEventType` (`/repo/mpd/mpd.go` 1049-1054). -/
def tAlternativeMPDReplaceEventType : Typ := mkStruct b!"AlternativeMPDReplaceEventType" [
  fld b!"ReturnOffset" b!"returnOffset,attr,omitempty" true (.simple (.uint 64)),
  fld b!"Clip" b!"clip,attr" true (.ptr (.simple .bool)),
  fld b!"StartWithOffset" b!"startWithOffset,attr,omitempty" true (.simple .bool),
  emb b!"AlternativeMPDEventType" b!"" (.ptr (tAlternativeMPDEventType))]

/-- `ExtType` (`/repo/mpd/scte35.go` 467-471). -/
def tExtType : Typ := mkStruct b!"ExtType" [
  fld b!"XMLName" b!"" true (.name),
  fld b!"AnyAttrs" b!",any,attr" true (.slice (.attr)),
  fld b!"InnerXML" b!",innerxml" true (.simple .str)]

/-- `EncryptedPacketType` (`/repo/mpd/scte35.go` 193-199). -/
def tEncryptedPacketType : Typ := mkStruct b!"EncryptedPacketType" [
  fld b!"XMLName" b!"" true (.name),
  fld b!"EncryptionAlgorithm" b!"encryptionAlgorithm,attr" true (.simple (.uint 8)),
  fld b!"CwIndex" b!"cwIndex,attr" true (.simple (.uint 8)),
  fld b!"AnyAttrs" b!",any,attr" true (.slice (.attr)),
  fld b!"Ext" b!"Ext,omitempty" true (.ptr (tExtType))]

/-- `SpliceNullType` (`/repo/mpd/scte35.go` 202-205). -/
def tSpliceNullType : Typ := mkStruct b!"SpliceNullType" [
  fld b!"XMLName" b!"" true (.name),
  fld b!"Ext" b!"Ext,omitempty" true (.ptr (tExtType))]

/-- `SpliceScheduleProgramType` (`/repo/mpd/scte35.go` 235-240). -/
def tSpliceScheduleProgramType : Typ := mkStruct b!"SpliceScheduleProgramType" [
  fld b!"XMLName" b!"" true (.name),
  fld b!"UtcSpliceTime" b!"utcSpliceTime,attr" true (.simple .str),
  fld b!"AnyAttrs" b!",any,attr" true (.slice (.attr)),
  fld b!"Ext" b!"Ext,omitempty" true (.ptr (tExtType))]

/-- `SpliceScheduleComponentType` (`/repo/mpd/scte35.go` 244-250). -/
def tSpliceScheduleComponentType : Typ := mkStruct b!"SpliceScheduleComponentType" [
  fld b!"XMLName" b!"" true (.name),
  fld b!"ComponentTag" b!"componentTag,attr" true (.simple (.uint 8)),
  fld b!"UtcSpliceTime" b!"utcSpliceTime,attr" true (.simple .str),
  fld b!"AnyAttrs" b!",any,attr" true (.slice (.attr)),
  fld b!"Ext" b!"Ext,omitempty" true (.ptr (tExtType))]

/-- `BreakDurationType` (`/repo/mpd/scte35.go` 324-330). -/
def tBreakDurationType : Typ := mkStruct b!"BreakDurationType" [
  fld b!"XMLName" b!"" true (.name),
  fld b!"AutoReturn" b!"autoReturn,attr" true (.simple .bool),
  fld b!"Duration" b!"duration,attr" true (.simple (.uint 64)),
  fld b!"AnyAttrs" b!",any,attr" true (.slice (.attr)),
  fld b!"Ext" b!"Ext,omitempty" true (.ptr (tExtType))]

/-- `SpliceScheduleEventType` (`/repo/mpd/scte35.go` 217-231). -/
def tSpliceScheduleEventType : Typ := mkStruct b!"SpliceScheduleEventType" [
  fld b!"XMLName" b!"" true (.name),
  fld b!"SpliceEventId" b!"spliceEventId,attr,omitempty" true (.ptr (.simple (.uint 32))),
  fld b!"EventIdComplianceFlag" b!"eventIdComplianceFlag,attr,omitempty" true (.ptr (.simple .bool)),
  fld b!"SpliceEventCancelIndicator" b!"spliceEventCancelIndicator,attr,omitempty" true (.ptr (.simple .bool)),
  fld b!"OutOfNetworkIndicator" b!"outOfNetworkIndicator,attr,omitempty" true (.ptr (.simple .bool)),
  fld b!"UniqueProgramId" b!"uniqueProgramId,attr,omitempty" true (.ptr (.simple (.uint 16))),
  fld b!"AvailNum" b!"availNum,attr,omitempty" true (.ptr (.simple (.uint 8))),
  fld b!"AvailsExpected" b!"availsExpected,attr,omitempty" true (.ptr (.simple (.uint 8))),
  fld b!"AnyAttrs" b!",any,attr" true (.slice (.attr)),
  fld b!"Ext" b!"Ext,omitempty" true (.ptr (tExtType)),
  fld b!"Program" b!"Program,omitempty" true (.ptr (tSpliceScheduleProgramType)),
  fld b!"Components" b!"Component" true (.slice (.ptr (tSpliceScheduleComponentType))),
  fld b!"BreakDuration" b!"BreakDuration,omitempty" true (.ptr (tBreakDurationType))]

/-- `SpliceScheduleType` (`/repo/mpd/scte35.go` 209-213). -/
def tSpliceScheduleType : Typ := mkStruct b!"SpliceScheduleType" [
  fld b!"XMLName" b!"" true (.name),
  fld b!"Ext" b!"Ext,omitempty" true (.ptr (tExtType)),
  fld b!"Events" b!"Event" true (.slice (.ptr (tSpliceScheduleEventType)))]

/-- `SpliceTimeType` (`/repo/mpd/scte35.go` 315-320). -/
def tSpliceTimeType : Typ := mkStruct b!"SpliceTimeType" [
  fld b!"XMLName" b!"" true (.name),
  fld b!"PtsTime" b!"ptsTime,attr,omitempty" true (.ptr (.simple (.uint 64))),
  fld b!"AnyAttrs" b!",any,attr" true (.slice (.attr)),
  fld b!"Ext" b!"Ext,omitempty" true (.ptr (tExtType))]

/-- `SpliceInsertProgramType` (`/repo/mpd/scte35.go` 272-277). -/
def tSpliceInsertProgramType : Typ := mkStruct b!"SpliceInsertProgramType" [
  fld b!"XMLName" b!"" true (.name),
  fld b!"AnyAttrs" b!",any,attr" true (.slice (.attr)),
  fld b!"Ext" b!"Ext,omitempty" true (.ptr (tExtType)),
  fld b!"SpliceTime" b!"SpliceTime,omitempty" true (.ptr (tSpliceTimeType))]

/-- `SpliceInsertComponentType` (`/repo/mpd/scte35.go` 281-287). -/
def tSpliceInsertComponentType : Typ := mkStruct b!"SpliceInsertComponentType" [
  fld b!"XMLName" b!"" true (.name),
  fld b!"ComponentTag" b!"componentTag,attr" true (.simple (.uint 8)),
  fld b!"AnyAttrs" b!",any,attr" true (.slice (.attr)),
  fld b!"Ext" b!"Ext,omitempty" true (.ptr (tExtType)),
  fld b!"SpliceTime" b!"SpliceTime,omitempty" true (.ptr (tSpliceTimeType))]

/-- `SpliceInsertType` (`/repo/mpd/scte35.go` 254-268). -/
def tSpliceInsertType : Typ := mkStruct b!"SpliceInsertType" [
  fld b!"XMLName" b!"" true (.name),
  fld b!"SpliceEventId" b!"spliceEventId,attr,omitempty" true (.ptr (.simple (.uint 32))),
  fld b!"SpliceEventCancelIndicator" b!"spliceEventCancelIndicator,attr,omitempty" true (.ptr (.simple .bool)),
  fld b!"OutOfNetworkIndicator" b!"outOfNetworkIndicator,attr,omitempty" true (.ptr (.simple .bool)),
  fld b!"SpliceImmediateFlag" b!"spliceImmediateFlag,attr,omitempty" true (.ptr (.simple .bool)),
  fld b!"EventIdComplianceFlag" b!"eventIdComplianceFlag,attr,omitempty" true (.ptr (.simple .bool)),
  fld b!"UniqueProgramId" b!"uniqueProgramId,attr,omitempty" true (.ptr (.simple (.uint 16))),
  fld b!"AvailNum" b!"availNum,attr,omitempty" true (.ptr (.simple (.uint 8))),
  fld b!"AvailsExpected" b!"availsExpected,attr,omitempty" true (.ptr (.simple (.uint 8))),
  fld b!"Ext" b!"Ext,omitempty" true (.ptr (tExtType)),
  fld b!"Program" b!"Program,omitempty" true (.ptr (tSpliceInsertProgramType)),
  fld b!"Components" b!"Component" true (.slice (.ptr (tSpliceInsertComponentType))),
  fld b!"BreakDuration" b!"BreakDuration,omitempty" true (.ptr (tBreakDurationType))]

/-- `TimeSignalType` (`/repo/mpd/scte35.go` 290-294). -/
def tTimeSignalType : Typ := mkStruct b!"TimeSignalType" [
  fld b!"XMLName" b!"" true (.name),
  fld b!"Ext" b!"Ext,omitempty" true (.ptr (tExtType)),
  fld b!"SpliceTime" b!"SpliceTime" true (.ptr (tSpliceTimeType))]

/-- `BandwidthReservationType` (`/repo/mpd/scte35.go` 298-301). -/
def tBandwidthReservationType : Typ := mkStruct b!"BandwidthReservationType" [
  fld b!"XMLName" b!"" true (.name),
  fld b!"Ext" b!"Ext,omitempty" true (.ptr (tExtType))]

/-- `PrivateCommandType` (`/repo/mpd/scte35.go` 305-310). -/
def tPrivateCommandType : Typ := mkStruct b!"PrivateCommandType" [
  fld b!"XMLName" b!"" true (.name),
  fld b!"Identifier" b!"identifier,attr" true (.simple (.uint 32)),
  fld b!"Ext" b!"Ext,omitempty" true (.ptr (tExtType)),
  fld b!"PrivateBytes" b!"PrivateBytes,omitempty" true (.simple .str)]

/-- `AvailDescriptorType` (`/repo/mpd/scte35.go` 333-338). -/
def tAvailDescriptorType : Typ := mkStruct b!"AvailDescriptorType" [
  fld b!"XMLName" b!"" true (.name),
  fld b!"ProviderAvailId" b!"providerAvailId,attr" true (.simple (.uint 32)),
  fld b!"AnyAttrs" b!",any,attr" true (.slice (.attr)),
  fld b!"Ext" b!"Ext,omitempty" true (.ptr (tExtType))]

/-- `DTMFDescriptorType` (`/repo/mpd/scte35.go` 341-347). -/
def tDTMFDescriptorType : Typ := mkStruct b!"DTMFDescriptorType" [
  fld b!"XMLName" b!"" true (.name),
  fld b!"Preroll" b!"preroll,attr,omitempty" true (.ptr (.simple (.uint 8))),
  fld b!"Chars" b!"chars,attr,omitempty" true (.simple .str),
  fld b!"AnyAttrs" b!",any,attr" true (.slice (.attr)),
  fld b!"Ext" b!"Ext,omitempty" true (.ptr (tExtType))]

/-- `DeliveryRestrictionsType` (`/repo/mpd/scte35.go` 379-387). -/
def tDeliveryRestrictionsType : Typ := mkStruct b!"DeliveryRestrictionsType" [
  fld b!"XMLName" b!"" true (.name),
  fld b!"WebDeliveryAllowedFlag" b!"webDeliveryAllowedFlag,attr" true (.simple .bool),
  fld b!"NoRegionalBlackoutFlag" b!"noRegionalBlackoutFlag,attr" true (.simple .bool),
  fld b!"ArchiveAllowedFlag" b!"archiveAllowedFlag,attr" true (.simple .bool),
  fld b!"DeviceRestrictions" b!"deviceRestrictions,attr" true (.simple (.uint 8)),
  fld b!"AnyAttrs" b!",any,attr" true (.slice (.attr)),
  fld b!"Ext" b!"Ext,omitempty" true (.ptr (tExtType))]

/-- `SegmentationUpidType` (`/repo/mpd/scte35.go` 397-404). -/
def tSegmentationUpidType : Typ := mkStruct b!"SegmentationUpidType" [
  fld b!"XMLName" b!"" true (.name),
  fld b!"SegmentationUpidType" b!"segmentationUpidType,attr,omitempty" true (.ptr (.simple (.uint 8))),
  fld b!"FormatIdentifier" b!"formatIdentifier,attr,omitempty" true (.ptr (.simple (.uint 32))),
  fld b!"SegmentationUpidFormat" b!"segmentationUpidFormat,attr,omitempty" true (.simple .str),
  fld b!"AnyAttrs" b!",any,attr" true (.slice (.attr)),
  fld b!"Value" b!",chardata" true (.simple .str)]

/-- `SegmentationDescriptorComponentType` (`/repo/mpd/scte35.go` 408-414). -/
def tSegmentationDescriptorComponentType : Typ := mkStruct b!"SegmentationDescriptorComponentType" [
  fld b!"XMLName" b!"" true (.name),
  fld b!"ComponentTag" b!"componentTag,attr" true (.simple (.uint 8)),
  fld b!"PtsOffset" b!"ptsOffset,attr" true (.simple (.uint 64)),
  fld b!"AnyAttrs" b!",any,attr" true (.slice (.attr)),
  fld b!"Ext" b!"Ext,omitempty" true (.ptr (tExtType))]

/-- `SegmentationDescriptorType` (`/repo/mpd/scte35.go` 353-375). -/
def tSegmentationDescriptorType : Typ := mkStruct b!"SegmentationDescriptorType" [
  fld b!"XMLName" b!"" true (.name),
  fld b!"SegmentationEventId" b!"segmentationEventId,attr,omitempty" true (.ptr (.simple (.uint 32))),
  fld b!"SegmentationEventCancelIndicator" b!"segmentationEventCancelIndicator,attr,omitempty" true (.ptr (.simple .bool)),
  fld b!"SegmentationEventIdComplianceIndicator" b!"segmentationEventIdComplianceIndicator,attr,omitempty" true (.ptr (.simple .bool)),
  fld b!"SegmentationDuration" b!"segmentationDuration,attr,omitempty" true (.ptr (.simple (.uint 64))),
  fld b!"SegmentationTypeId" b!"segmentationTypeId,attr,omitempty" true (.ptr (.simple (.uint 8))),
  fld b!"SegmentNum" b!"segmentNum,attr,omitempty" true (.ptr (.simple (.uint 8))),
  fld b!"SegmentsExpected" b!"segmentsExpected,attr,omitempty" true (.ptr (.simple (.uint 8))),
  fld b!"SubSegmentNum" b!"subSegmentNum,attr,omitempty" true (.ptr (.simple (.uint 8))),
  fld b!"SubSegmentsExpected" b!"subSegmentsExpected,attr,omitempty" true (.ptr (.simple (.uint 8))),
  fld b!"AnyAttrs" b!",any,attr" true (.slice (.attr)),
  fld b!"Ext" b!"Ext,omitempty" true (.ptr (tExtType)),
  fld b!"DeliveryRestrictions" b!"DeliveryRestrictions,omitempty" true (.ptr (tDeliveryRestrictionsType)),
  fld b!"SegmentationUpids" b!"SegmentationUpid" true (.slice (.ptr (tSegmentationUpidType))),
  fld b!"Components" b!"Component" true (.slice (.ptr (tSegmentationDescriptorComponentType)))]

/-- `TimeDescriptorType` (`/repo/mpd/scte35.go` 417-424). -/
def tTimeDescriptorType : Typ := mkStruct b!"TimeDescriptorType" [
  fld b!"XMLName" b!"" true (.name),
  fld b!"TaiSeconds" b!"taiSeconds,attr,omitempty" true (.ptr (.simple (.uint 64))),
  fld b!"TaiNs" b!"taiNs,attr,omitempty" true (.ptr (.simple (.uint 32))),
  fld b!"UtcOffset" b!"utcOffset,attr,omitempty" true (.ptr (.simple (.uint 16))),
  fld b!"AnyAttrs" b!",any,attr" true (.slice (.attr)),
  fld b!"Ext" b!"Ext,omitempty" true (.ptr (tExtType))]

/-- `AudioChannelType` (`/repo/mpd/scte35.go` 440-449). -/
def tAudioChannelType : Typ := mkStruct b!"AudioChannelType" [
  fld b!"XMLName" b!"" true (.name),
  fld b!"ISOCode" b!"ISOCode,attr" true (.simple .str),
  fld b!"BitStreamMode" b!"BitStreamMode,attr" true (.simple (.uint 8)),
  fld b!"NumChannels" b!"NumChannels,attr" true (.simple (.uint 8)),
  fld b!"FullSrvcAudio" b!"FullSrvcAudio,attr" true (.simple (.uint 8)),
  fld b!"ComponentTag" b!"componentTag,attr,omitempty" true (.ptr (.simple (.uint 8))),
  fld b!"AnyAttrs" b!",any,attr" true (.slice (.attr)),
  fld b!"Ext" b!"Ext,omitempty" true (.ptr (tExtType))]

/-- `AudioDescriptorType` (`/repo/mpd/scte35.go` 430-435). -/
def tAudioDescriptorType : Typ := mkStruct b!"AudioDescriptorType" [
  fld b!"XMLName" b!"" true (.name),
  fld b!"AnyAttrs" b!",any,attr" true (.slice (.attr)),
  fld b!"Ext" b!"Ext,omitempty" true (.ptr (tExtType)),
  fld b!"AudioChannels" b!"AudioChannel" true (.slice (.ptr (tAudioChannelType)))]

/-- `PrivateDescriptorType` (`/repo/mpd/scte35.go` 453-460). -/
def tPrivateDescriptorType : Typ := mkStruct b!"PrivateDescriptorType" [
  fld b!"XMLName" b!"" true (.name),
  fld b!"DescriptorTag" b!"descriptorTag,attr" true (.simple (.uint 8)),
  fld b!"Identifier" b!"identifier,attr" true (.simple (.uint 32)),
  fld b!"AnyAttrs" b!",any,attr" true (.slice (.attr)),
  fld b!"Ext" b!"Ext,omitempty" true (.ptr (tExtType)),
  fld b!"PrivateBytes" b!"PrivateBytes,omitempty" true (.simple .str)]

/-- `SpliceInfoSectionType` (`/repo/mpd/scte35.go` 158-180). -/
def tSpliceInfoSectionType : Typ := mkStruct b!"SpliceInfoSectionType" [
  fld b!"XMLName" b!"" true (.name),
  fld b!"SapType" b!"sapType,attr,omitempty" true (.ptr (.simple (.uint 8))),
  fld b!"PreRollMilliSeconds" b!"preRollMilliSeconds,attr,omitempty" true (.simple (.uint 32)),
  fld b!"PtsAdjustment" b!"ptsAdjustment,attr,omitempty" true (.simple (.uint 64)),
  fld b!"ProtocolVersion" b!"protocolVersion,attr,omitempty" true (.ptr (.simple (.uint 8))),
  fld b!"Tier" b!"tier,attr,omitempty" true (.ptr (.simple (.uint 16))),
  fld b!"AnyAttrs" b!",any,attr" true (.slice (.attr)),
  fld b!"Ext" b!"Ext,omitempty" true (.ptr (tExtType)),
  fld b!"EncryptedPacket" b!"EncryptedPacket,omitempty" true (.ptr (tEncryptedPacketType)),
  fld b!"SpliceNull" b!"SpliceNull,omitempty" true (.ptr (tSpliceNullType)),
  fld b!"SpliceSchedule" b!"SpliceSchedule,omitempty" true (.ptr (tSpliceScheduleType)),
  fld b!"SpliceInsert" b!"SpliceInsert,omitempty" true (.ptr (tSpliceInsertType)),
  fld b!"TimeSignal" b!"TimeSignal,omitempty" true (.ptr (tTimeSignalType)),
  fld b!"BandwidthReservation" b!"BandwidthReservation,omitempty" true (.ptr (tBandwidthReservationType)),
  fld b!"PrivateCommand" b!"PrivateCommand,omitempty" true (.ptr (tPrivateCommandType)),
  fld b!"AvailDescriptors" b!"AvailDescriptor" true (.slice (.ptr (tAvailDescriptorType))),
  fld b!"DTMFDescriptors" b!"DTMFDescriptor" true (.slice (.ptr (tDTMFDescriptorType))),
  fld b!"SegmentationDescriptors" b!"SegmentationDescriptor" true (.slice (.ptr (tSegmentationDescriptorType))),
  fld b!"TimeDescriptors" b!"TimeDescriptor" true (.slice (.ptr (tTimeDescriptorType))),
  fld b!"AudioDescriptors" b!"AudioDescriptor" true (.slice (.ptr (tAudioDescriptorType))),
  fld b!"PrivateDescriptors" b!"PrivateDescriptor" true (.slice (.ptr (tPrivateDescriptorType)))]

/-- `BinaryType` (`/repo/mpd/scte35.go` 185-189). -/
def tBinaryType : Typ := mkStruct b!"BinaryType" [
  fld b!"XMLName" b!"" true (.name),
  fld b!"SignalType" b!"signalType,attr,omitempty" true (.simple .str),
  fld b!"Value" b!",chardata" true (.simple .str)]

/-- `SignalType` (`/repo/mpd/scte35.go` 145-149). -/
def tSignalType : Typ := mkStruct b!"SignalType" [
  fld b!"XMLName" b!"" true (.name),
  fld b!"SpliceInfoSection" b!"SpliceInfoSection,omitempty" true (.ptr (tSpliceInfoSectionType)),
  fld b!"Binary" b!"Binary,omitempty" true (.ptr (tBinaryType))]

/-- `EventType` (`/repo/mpd/mpd.go` 224-241). -/
def tEventType : Typ := mkStruct b!"EventType" [
  fld b!"XMLName" b!"Event" true (.name),
  fld b!"PresentationTime" b!"presentationTime,attr" true (.simple (.uint 64)),
  fld b!"Duration" b!"duration,attr,omitempty" true (.simple (.uint 64)),
  fld b!"Id" b!"id,attr" true (.ptr (.simple (.uint 64))),
  fld b!"Status" b!"status,attr,omitempty" true (.simple .str),
  fld b!"ContentEncoding" b!"contentEncoding,attr,omitempty" true (.simple .str),
  fld b!"MessageData" b!"messageData,attr,omitempty" true (.simple .str),
  fld b!"Value" b!",chardata" true (.simple .str),
  fld b!"SelectionInfo" b!"SelectionInfo" true (.ptr (tSelectionInfoType)),
  fld b!"ServiceDescription" b!"ServiceDescription" true (.ptr (tServiceDescriptionType)),
  fld b!"InsertPresentation" b!"InsertPresentation" true (.ptr (tAlternativeMPDEventType)),
  fld b!"ReplacePresentation" b!"ReplacePresentation" true (.ptr (tAlternativeMPDReplaceEventType)),
  fld b!"SupplementalProperty" b!"SupplementalProperty" true (.slice (.ptr (tDescriptorType))),
  fld b!"EssentialProperty" b!"EssentialProperty" true (.slice (.ptr (tDescriptorType))),
  fld b!"Signal" b!"Signal,omitempty" true (.ptr (tSignalType)),
  fld b!"SpliceInfoSection" b!"SpliceInfoSection,omitempty" true (.ptr (tSpliceInfoSectionType))]

/-- `EventStreamType` (`/repo/mpd/mpd.go` 198-212). -/
def tEventStreamType : Typ := mkStruct b!"EventStreamType" [
  fld b!"XlinkHref" b!"http://www.w3.org/1999/xlink xlink:href,attr,omitempty" true (.simple .str),
  fld b!"XlinkActuate" b!"http://www.w3.org/1999/xlink xlink:actuate,attr,omitempty" true (.simple .str),
  fld b!"XlinkType" b!"http://www.w3.org/1999/xlink xlink:type,attr,omitempty" true (.simple .str),
  fld b!"XlinkShow" b!"http://www.w3.org/1999/xlink xlink:show,attr,omitempty" true (.simple .str),
  fld b!"SchemeIdUri" b!"schemeIdUri,attr" true (.simple .str),
  fld b!"Value" b!"value,attr,omitempty" true (.simple .str),
  fld b!"Timescale" b!"timescale,attr" true (.ptr (.simple (.uint 32))),
  fld b!"PresentationTimeOffset" b!"presentationTimeOffset,attr,omitempty" true (.simple (.uint 64)),
  fld b!"Events" b!"Event" true (.slice (.ptr (tEventType))),
  fld b!"BaseURLs" b!"BaseURL" true (.slice (.ptr (tBaseURLType))),
  fld b!"RequestParam" b!"RequestParam" true (.slice (.ptr (tExtendedUrlInfoType))),
  fld b!"EssentialProperty" b!"EssentialProperty" true (.slice (.ptr (tDescriptorType))),
  fld b!"SupplementalProperty" b!"SupplementalProperty" true (.slice (.ptr (tDescriptorType)))]

/-- `SwitchingType` (`/repo/mpd/mpd.go` 757-761). -/
def tSwitchingType : Typ := mkStruct b!"SwitchingType" [
  fld b!"XMLName" b!"Switching" true (.name),
  fld b!"Interval" b!"interval" true (.simple (.uint 32)),
  fld b!"Type" b!"type,attr,omitempty" true (.simple .str)]

/-- `RandomAccessType` (`/repo/mpd/mpd.go` 767-773). -/
def tRandomAccessType : Typ := mkStruct b!"RandomAccessType" [
  fld b!"XMLName" b!"RandomAccess" true (.name),
  fld b!"Interval" b!"interval,attr" true (.simple (.uint 32)),
  fld b!"Type" b!"type,attr,omitempty" true (.simple .str),
  fld b!"MinBufferTime" b!"minBufferTime,attr" true (.ptr (.simple .duration)),
  fld b!"Bandwidth" b!"bandwidth,attr,omitempty" true (.simple (.uint 32))]

/-- `LabelType` (`/repo/mpd/mpd.go` 713-718). -/
def tLabelType : Typ := mkStruct b!"LabelType" [
  fld b!"XMLName" b!"Label" true (.name),
  fld b!"Id" b!"id,attr,omitempty" true (.simple (.uint 32)),
  fld b!"Lang" b!"lang,attr,omitempty" true (.simple .str),
  fld b!"Value" b!",chardata" true (.simple .str)]

/-- `ProducerReferenceTimeType` (`/repo/mpd/mpd.go` 721-730). -/
def tProducerReferenceTimeType : Typ := mkStruct b!"ProducerReferenceTimeType" [
  fld b!"XMLName" b!"ProducerReferenceTime" true (.name),
  fld b!"Id" b!"id,attr" true (.simple (.uint 32)),
  fld b!"Inband" b!"inband,attr,omitempty" true (.simple .bool),
  fld b!"Type" b!"type,attr,omitempty" true (.simple .str),
  fld b!"ApplicationScheme" b!"applicationScheme,attr,omitempty" true (.simple .str),
  fld b!"WallClockTime" b!"wallClockTime,attr" true (.simple .str),
  fld b!"PresentationTime" b!"presentationTime,attr" true (.simple (.uint 64)),
  fld b!"UTCTiming" b!"UTCTiming" true (.ptr (tDescriptorType))]

/-- `PR` (`/repo/mpd/mpd.go` 697-702). -/
def tPR : Typ := mkStruct b!"PR" [
  fld b!"XMLName" b!"PR" true (.name),
  fld b!"PopularityRate" b!"popularityRate,attr" true (.simple (.uint 32)),
  fld b!"Start" b!"start,attr" true (.ptr (.simple (.uint 64))),
  fld b!"R" b!"r,attr,omitempty" true (.simple (.int 64))]

/-- `ContentPopularityRateType` (`/repo/mpd/mpd.go` 705-710). -/
def tContentPopularityRateType : Typ := mkStruct b!"ContentPopularityRateType" [
  fld b!"XMLName" b!"ContentPopularityRate" true (.name),
  fld b!"Source" b!"source,attr" true (.simple .str),
  fld b!"Sourcedescription" b!"source_description,attr,omitempty" true (.simple .str),
  fld b!"PR" b!"PR" true (.slice (.ptr (tPR)))]

/-- `ResyncType` (`/repo/mpd/mpd.go` 687-694). -/
def tResyncType : Typ := mkStruct b!"ResyncType" [
  fld b!"XMLName" b!"Resync" true (.name),
  fld b!"Type" b!"type,attr" true (.simple (.uint 32)),
  fld b!"DT" b!"dT,attr" true (.ptr (.simple (.uint 32))),
  fld b!"DImax" b!"dImax,attr" true (.ptr (.simple (.float 32))),
  fld b!"DImin" b!"dImin,attr" true (.simple (.float 32)),
  fld b!"Marker" b!"marker,attr" true (.simple .bool)]

/-- `SegmentSequencePropertiesType` (`/repo/mpd/mpd.go` 1022-1027). -/
def tSegmentSequencePropertiesType : Typ := mkStruct b!"SegmentSequencePropertiesType" [
  fld b!"SapType" b!"sapType,attr" true (.simple (.uint 32)),
  fld b!"Cadence" b!"cadence,attr,omitempty" true (.simple (.uint 32)),
  fld b!"Event" b!"event,attr,omitempty" true (.simple .bool),
  fld b!"Alignment" b!"alignment,attr,omitempty" true (.simple .str)]

/-- `RepresentationBaseType` (`/repo/mpd/mpd.go` 519-556). -/
def tRepresentationBaseType : Typ := mkStruct b!"RepresentationBaseType" [
  fld b!"Profiles" b!"profiles,attr,omitempty" true (.simple .str),
  fld b!"Width" b!"width,attr,omitempty" true (.simple (.uint 32)),
  fld b!"Height" b!"height,attr,omitempty" true (.simple (.uint 32)),
  fld b!"Sar" b!"sar,attr,omitempty" true (.simple .str),
  fld b!"FrameRate" b!"frameRate,attr,omitempty" true (.simple .str),
  fld b!"AudioSamplingRate" b!"audioSamplingRate,attr,omitempty" true (.ptr (.simple .str)),
  fld b!"MimeType" b!"mimeType,attr,omitempty" true (.simple .str),
  fld b!"SegmentProfiles" b!"segmentProfiles,attr,omitempty" true (.ptr (.simple .str)),
  fld b!"Codecs" b!"codecs,attr,omitempty" true (.simple .str),
  fld b!"ContainerProfiles" b!"containerProfiles,attr,omitempty" true (.ptr (.simple .str)),
  fld b!"MaximumSAPPeriod" b!"maximumSAPPeriod,attr,omitempty" true (.simple (.float 64)),
  fld b!"StartWithSAP" b!"startWithSAP,attr,omitempty" true (.simple (.uint 32)),
  fld b!"MaxPlayoutRate" b!"maxPlayoutRate,attr,omitempty" true (.simple (.float 64)),
  fld b!"CodingDependency" b!"codingDependency,attr,omitempty" true (.ptr (.simple .bool)),
  fld b!"ScanType" b!"scanType,attr,omitempty" true (.simple .str),
  fld b!"SelectionPriority" b!"selectionPriority,attr" true (.ptr (.simple (.uint 32))),
  fld b!"Tag" b!"tag,attr,omitempty" true (.simple .str),
  fld b!"SCTE214SupplementalProfiles" b!"urn:scte:dash:scte214-extensions scte214:supplementalProfiles,attr,omitempty" true (.simple .str),
  fld b!"SCTE214SupplementalCodecs" b!"urn:scte:dash:scte214-extensions scte214:supplementalCodecs,attr,omitempty" true (.simple .str),
  fld b!"FramePackings" b!"FramePacking" true (.slice (.ptr (tDescriptorType))),
  fld b!"AudioChannelConfigurations" b!"AudioChannelConfiguration" true (.slice (.ptr (tDescriptorType))),
  fld b!"ContentProtections" b!"ContentProtection" true (.slice (.ptr (tContentProtectionType))),
  fld b!"OutputProtection" b!"OutputProtection" true (.ptr (tDescriptorType)),
  fld b!"EssentialProperties" b!"EssentialProperty" true (.slice (.ptr (tDescriptorType))),
  fld b!"SupplementalProperties" b!"SupplementalProperty" true (.slice (.ptr (tDescriptorType))),
  fld b!"InbandEventStreams" b!"InbandEventStream" true (.slice (.ptr (tEventStreamType))),
  fld b!"Switchings" b!"Switching" true (.slice (.ptr (tSwitchingType))),
  fld b!"RandomAccesses" b!"RandomAccess" true (.slice (.ptr (tRandomAccessType))),
  fld b!"GroupLabels" b!"GroupLabel" true (.slice (.ptr (tLabelType))),
  fld b!"Labels" b!"Label" true (.slice (.ptr (tLabelType))),
  fld b!"ProducerReferenceTimes" b!"ProducerReferenceTime" true (.slice (.ptr (tProducerReferenceTimeType))),
  fld b!"ContentPopularityRates" b!"ContentPopularityRate" true (.slice (.ptr (tContentPopularityRateType))),
  fld b!"Resyncs" b!"Resync" true (.slice (.ptr (tResyncType))),
  fld b!"SegmentSequenceProperties" b!"SegmentSequenceProperties" true (.slice (.ptr (tSegmentSequencePropertiesType)))]

/-- `InitializationSetType` (`/repo/mpd/mpd.go` 258-276). -/
def tInitializationSetType : Typ := mkStruct b!"InitializationSetType" [
  fld b!"XMLName" b!"InitializationSet" true (.name),
  fld b!"XlinkHref" b!"http://www.w3.org/1999/xlink xlink:href,attr,omitempty" true (.simple .str),
  fld b!"XlinkActuate" b!"http://www.w3.org/1999/xlink xlink:actuate,attr,omitempty" true (.simple .str),
  fld b!"XlinkType" b!"http://www.w3.org/1999/xlink xlink:type,attr,omitempty" true (.simple .str),
  fld b!"Id" b!"id,attr" true (.simple (.uint 32)),
  fld b!"InAllPeriods" b!"inAllPeriods,attr" true (.ptr (.simple .bool)),
  fld b!"ContentType" b!"contentType,attr,omitempty" true (.simple .str),
  fld b!"Par" b!"par,attr,omitempty" true (.simple .str),
  fld b!"MaxWidth" b!"maxWidth,attr,omitempty" true (.simple (.uint 32)),
  fld b!"MaxHeight" b!"maxHeight,attr,omitempty" true (.simple (.uint 32)),
  fld b!"MaxFrameRate" b!"maxFrameRate,attr,omitempty" true (.simple .str),
  fld b!"Initialization" b!"initialization,attr,omitempty" true (.simple .str),
  fld b!"Accessibilities" b!"Accessibility" true (.slice (.ptr (tDescriptorType))),
  fld b!"Roles" b!"Role" true (.slice (.ptr (tDescriptorType))),
  fld b!"Ratings" b!"Rating" true (.slice (.ptr (tDescriptorType))),
  fld b!"Viewpoints" b!"Viewpoint" true (.slice (.ptr (tDescriptorType))),
  emb b!"RepresentationBaseType" b!"" (tRepresentationBaseType)]

/-- `UIntVWithIDType` (`/repo/mpd/mpd.go` 342-348). -/
def tUIntVWithIDType : Typ := mkStruct b!"UIntVWithIDType" [
  fld b!"XMLName" b!"UIntVWithID" true (.name),
  fld b!"Id" b!"id,attr" true (.simple (.uint 32)),
  fld b!"Profiles" b!"profiles,attr,omitempty" true (.simple .str),
  fld b!"ContentType" b!"contentType,attr,omitempty" true (.simple .str),
  emb b!"UIntVectorType" b!"" (.simple .str)]

/-- `ImportedMpdType` (`/repo/mpd/mpd.go` 183-186). -/
def tImportedMpdType : Typ := mkStruct b!"ImportedMpdType" [
  fld b!"EarliestResolutionTimeOffset" b!"earliestResolutionTimeOffset,attr" true (.simple (.float 64)),
  fld b!"Value" b!",chardata" true (.simple .str)]

/-- `URLType` (`/repo/mpd/mpd.go` 825-828). -/
def tURLType : Typ := mkStruct b!"URLType" [
  fld b!"SourceURL" b!"sourceURL,attr,omitempty" true (.simple .str),
  fld b!"Range" b!"range,attr,omitempty" true (.simple .str)]

/-- `FCS` (`/repo/mpd/mpd.go` 831-834). -/
def tFCS : Typ := mkStruct b!"FCS" [
  fld b!"T" b!"t,attr" true (.simple (.uint 64)),
  fld b!"D" b!"d,attr,omitempty" true (.simple (.uint 64))]

/-- `FailoverContentType` (`/repo/mpd/mpd.go` 837-840). -/
def tFailoverContentType : Typ := mkStruct b!"FailoverContentType" [
  fld b!"Valid" b!"valid,attr" true (.ptr (.simple .bool)),
  fld b!"FCS" b!"FCS" true (.slice (.ptr (tFCS)))]

/-- `SegmentBaseType` (`/repo/mpd/mpd.go` 779-793). -/
def tSegmentBaseType : Typ := mkStruct b!"SegmentBaseType" [
  fld b!"Timescale" b!"timescale,attr" true (.ptr (.simple (.uint 32))),
  fld b!"EptDelta" b!"eptDelta,attr" true (.ptr (.simple (.int 64))),
  fld b!"PdDelta" b!"pdDelta,attr" true (.ptr (.simple (.int 64))),
  fld b!"PresentationTimeOffset" b!"presentationTimeOffset,attr,omitempty" true (.ptr (.simple (.uint 64))),
  fld b!"PresentationDuration" b!"presentationDuration,attr,omitempty" true (.ptr (.simple (.uint 64))),
  fld b!"TimeShiftBufferDepth" b!"timeShiftBufferDepth,attr,omitempty" true (.simple .duration),
  fld b!"IndexRange" b!"indexRange,attr,omitempty" true (.simple .str),
  fld b!"IndexRangeExact" b!"indexRangeExact,attr,omitempty" true (.simple .bool),
  fld b!"AvailabilityTimeOffset" b!"availabilityTimeOffset,attr,omitempty" true (.simple .floatInf),
  fld b!"AvailabilityTimeComplete" b!"availabilityTimeComplete,attr" true (.ptr (.simple .bool)),
  fld b!"Initialization" b!"Initialization" true (.ptr (tURLType)),
  fld b!"RepresentationIndex" b!"RepresentationIndex" true (.ptr (tURLType)),
  fld b!"FailoverContent" b!"FailoverContent" true (.ptr (tFailoverContentType))]

/-- `SegmentURLType` (`/repo/mpd/mpd.go` 853-858). -/
def tSegmentURLType : Typ := mkStruct b!"SegmentURLType" [
  fld b!"Media" b!"media,attr,omitempty" true (.simple .str),
  fld b!"MediaRange" b!"mediaRange,attr,omitempty" true (.simple .str),
  fld b!"Index" b!"index,attr,omitempty" true (.simple .str),
  fld b!"IndexRange" b!"indexRange,attr,omitempty" true (.simple .str)]

/-- `CommonSegmentSequenceAttributes` (`/repo/mpd/mpd.go` 871-873). -/
def tCommonSegmentSequenceAttributes : Typ := mkStruct b!"CommonSegmentSequenceAttributes" [
  fld b!"K" b!"k,attr,omitempty" true (.ptr (.simple (.uint 64)))]

/-- `CommonSegmentSequenceDurationPatternAttributes` (`/repo/mpd/mpd.go` 883-885). -/
def tCommonSegmentSequenceDurationPatternAttributes : Typ := mkStruct b!"CommonSegmentSequenceDurationPatternAttributes" [
  fld b!"Ssp" b!"ssp,attr,omitempty" true (.ptr (.simple (.uint 32)))]

/-- `RunLengthType` (`/repo/mpd/mpd.go` 888-893). -/
def tRunLengthType : Typ := mkStruct b!"RunLengthType" [
  fld b!"D" b!"d,attr" true (.simple (.uint 64)),
  fld b!"R" b!"r,attr,omitempty" true (.simple (.uint 32)),
  emb b!"CommonSegmentSequenceAttributes" b!"" (tCommonSegmentSequenceAttributes),
  emb b!"CommonSegmentSequenceDurationPatternAttributes" b!"" (tCommonSegmentSequenceDurationPatternAttributes)]

/-- `PatternType` (`/repo/mpd/mpd.go` 896-899). -/
def tPatternType : Typ := mkStruct b!"PatternType" [
  fld b!"Id" b!"id,attr" true (.simple (.uint 64)),
  fld b!"P" b!"P" true (.slice (.ptr (tRunLengthType)))]

/-- `CommonDurationPatternAttributes` (`/repo/mpd/mpd.go` 877-880). -/
def tCommonDurationPatternAttributes : Typ := mkStruct b!"CommonDurationPatternAttributes" [
  fld b!"P" b!"p,attr,omitempty" true (.ptr (.simple (.uint 32))),
  fld b!"PE" b!"pE,attr,omitempty" true (.ptr (.simple (.uint 32)))]

/-- `S` (`/repo/mpd/mpd.go` 903-916). -/
def tS : Typ := mkStruct b!"S" [
  fld b!"T" b!"t,attr" true (.ptr (.simple (.uint 64))),
  fld b!"N" b!"n,attr" true (.ptr (.simple (.uint 64))),
  fld b!"D" b!"d,attr,omitempty" true (.simple (.uint 64)),
  fld b!"R" b!"r,attr,omitempty" true (.simple (.int 64)),
  emb b!"CommonSegmentSequenceAttributes" b!"" (tCommonSegmentSequenceAttributes),
  emb b!"CommonDurationPatternAttributes" b!"" (tCommonDurationPatternAttributes),
  emb b!"CommonSegmentSequenceDurationPatternAttributes" b!"" (tCommonSegmentSequenceDurationPatternAttributes)]

/-- `SegmentTimelineType` (`/repo/mpd/mpd.go` 919-922). -/
def tSegmentTimelineType : Typ := mkStruct b!"SegmentTimelineType" [
  fld b!"Pattern" b!"Pattern" true (.slice (.ptr (tPatternType))),
  fld b!"S" b!"S" true (.slice (.ptr (tS)))]

/-- `MultipleSegmentBaseType` (`/repo/mpd/mpd.go` 812-822). -/
def tMultipleSegmentBaseType : Typ := mkStruct b!"MultipleSegmentBaseType" [
  fld b!"Duration" b!"duration,attr,omitempty" true (.ptr (.simple (.uint 32))),
  fld b!"Tolerance" b!"tolerance,attr,omitempty" true (.ptr (.simple (.float 64))),
  fld b!"StartNumber" b!"startNumber,attr,omitempty" true (.ptr (.simple (.uint 32))),
  fld b!"EndNumber" b!"endNumber,attr,omitempty" true (.ptr (.simple (.uint 32))),
  fld b!"EndSubNumber" b!"endSubNumber,attr,omitempty" true (.ptr (.simple (.uint 64))),
  fld b!"K" b!"k,attr,omitempty" true (.ptr (.simple (.uint 64))),
  fld b!"SegmentTimeline" b!"SegmentTimeline" true (.ptr (tSegmentTimelineType)),
  fld b!"BitstreamSwitching" b!"BitstreamSwitching" true (.ptr (tURLType)),
  emb b!"SegmentBaseType" b!"" (tSegmentBaseType)]

/-- `SegmentListType` (`/repo/mpd/mpd.go` 843-850). -/
def tSegmentListType : Typ := mkStruct b!"SegmentListType" [
  fld b!"XlinkHref" b!"http://www.w3.org/1999/xlink xlink:href,attr,omitempty" true (.simple .str),
  fld b!"XlinkActuate" b!"http://www.w3.org/1999/xlink xlink:actuate,attr,omitempty" true (.simple .str),
  fld b!"XlinkType" b!"http://www.w3.org/1999/xlink xlink:type,attr,omitempty" true (.simple .str),
  fld b!"XlinkShow" b!"xlink:show,attr,omitempty" true (.simple .str),
  fld b!"SegmentURL" b!"SegmentURL" true (.slice (.ptr (tSegmentURLType))),
  emb b!"MultipleSegmentBaseType" b!"" (tMultipleSegmentBaseType)]

/-- `SegmentTemplateType` (`/repo/mpd/mpd.go` 861-867). -/
def tSegmentTemplateType : Typ := mkStruct b!"SegmentTemplateType" [
  fld b!"Media" b!"media,attr,omitempty" true (.simple .str),
  fld b!"Index" b!"index,attr,omitempty" true (.simple .str),
  fld b!"Initialization" b!"initialization,attr,omitempty" true (.simple .str),
  fld b!"BitstreamSwitching" b!"bitstreamSwitching,attr,omitempty" true (.simple .str),
  emb b!"MultipleSegmentBaseType" b!"" (tMultipleSegmentBaseType)]

/-- `ContentComponentType` (`/repo/mpd/mpd.go` 427-438). -/
def tContentComponentType : Typ := mkStruct b!"ContentComponentType" [
  fld b!"XMLName" b!"ContentComponent" true (.name),
  fld b!"Id" b!"id,attr" true (.ptr (.simple (.uint 32))),
  fld b!"Lang" b!"lang,attr,omitempty" true (.simple .str),
  fld b!"ContentType" b!"contentType,attr,omitempty" true (.simple .str),
  fld b!"Par" b!"par,attr,omitempty" true (.simple .str),
  fld b!"Tag" b!"tag,attr,omitempty" true (.simple .str),
  fld b!"Accessibilities" b!"Accessibility" true (.slice (.ptr (tDescriptorType))),
  fld b!"Roles" b!"Role" true (.slice (.ptr (tDescriptorType))),
  fld b!"Ratings" b!"Rating" true (.slice (.ptr (tDescriptorType))),
  fld b!"Viewpoints" b!"Viewpoint" true (.slice (.ptr (tDescriptorType)))]

/-- `ModelPairType` (`/repo/mpd/mpd.go` 493-497). -/
def tModelPairType : Typ := mkStruct b!"ModelPairType" [
  fld b!"XMLName" b!"ModelPair" true (.name),
  fld b!"BufferTime" b!"bufferTime,attr" true (.ptr (.simple .duration)),
  fld b!"Bandwidth" b!"bandwidth,attr" true (.simple (.uint 32))]

/-- `ExtendedBandwidthType` (`/repo/mpd/mpd.go` 486-490). -/
def tExtendedBandwidthType : Typ := mkStruct b!"ExtendedBandwidthType" [
  fld b!"XMLName" b!"ExtendedBandwidth" true (.name),
  fld b!"Vbr" b!"vbr,attr,omitempty" true (.simple .bool),
  fld b!"ModelPairs" b!"ModelPair" true (.slice (.ptr (tModelPairType)))]

/-- `SubRepresentationType` (`/repo/mpd/mpd.go` 500-508). -/
def tSubRepresentationType : Typ := mkStruct b!"SubRepresentationType" [
  fld b!"XMLName" b!"SubRepresentation" true (.name),
  fld b!"Level" b!"level,attr,omitempty" true (.ptr (.simple (.uint 32))),
  fld b!"DependencyLevel" b!"dependencyLevel,attr,omitempty" true (.ptr (.simple .str)),
  fld b!"Bandwidth" b!"bandwidth,attr,omitempty" true (.simple (.uint 32)),
  fld b!"ContentComponent" b!"contentComponent,attr,omitempty" true (.ptr (.simple .str)),
  emb b!"RepresentationBaseType" b!"" (tRepresentationBaseType),
  fld b!"parent" b!"-" false .hidden]

/-- `RepresentationType` (`/repo/mpd/mpd.go` 441-460). -/
def tRepresentationType : Typ := mkStruct b!"RepresentationType" [
  fld b!"XMLName" b!"Representation" true (.name),
  fld b!"Id" b!"id,attr" true (.simple .str),
  fld b!"Bandwidth" b!"bandwidth,attr" true (.simple (.uint 32)),
  fld b!"QualityRanking" b!"qualityRanking,attr,omitempty" true (.ptr (.simple (.uint 32))),
  fld b!"DependencyId" b!"dependencyId,attr,omitempty" true (.ptr (.simple .str)),
  fld b!"AssociationId" b!"associationId,attr,omitempty" true (.ptr (.simple .str)),
  fld b!"AssociationType" b!"associationType,attr,omitempty" true (.ptr (.simple .str)),
  fld b!"MediaStreamStructureId" b!"mediaStreamStructureId,attr,omitempty" true (.ptr (.simple .str)),
  emb b!"RepresentationBaseType" b!"" (tRepresentationBaseType),
  fld b!"BaseURLs" b!"BaseURL" true (.slice (.ptr (tBaseURLType))),
  fld b!"ExtendedBandwidths" b!"ExtendedBandwidth" true (.slice (.ptr (tExtendedBandwidthType))),
  fld b!"SubRepresentations" b!"SubRepresentation" true (.slice (.ptr (tSubRepresentationType))),
  fld b!"RequestParam" b!"RequestParam" true (.slice (.ptr (tExtendedUrlInfoType))),
  fld b!"SegmentBase" b!"SegmentBase" true (.ptr (tSegmentBaseType)),
  fld b!"SegmentList" b!"SegmentList" true (.ptr (tSegmentListType)),
  fld b!"SegmentTemplate" b!"SegmentTemplate" true (.ptr (tSegmentTemplateType)),
  fld b!"parent" b!"-" false .hidden]

/-- `AdaptationSetType` (`/repo/mpd/mpd.go` 352-389). -/
def tAdaptationSetType : Typ := mkStruct b!"AdaptationSetType" [
  fld b!"XlinkHref" b!"xlink:href,attr,omitempty" true (.simple .str),
  fld b!"XlinkActuate" b!"xlink:actuate,attr,omitempty" true (.simple .str),
  fld b!"XlinkType" b!"xlink:type,attr,omitempty" true (.simple .str),
  fld b!"XlinkShow" b!"xlink:show,attr,omitempty" true (.simple .str),
  fld b!"Id" b!"id,attr" true (.ptr (.simple (.uint 32))),
  fld b!"Group" b!"group,attr,omitempty" true (.simple (.uint 32)),
  fld b!"Lang" b!"lang,attr,omitempty" true (.simple .str),
  fld b!"ContentType" b!"contentType,attr,omitempty" true (.simple .str),
  fld b!"Par" b!"par,attr,omitempty" true (.simple .str),
  fld b!"MinBandwidth" b!"minBandwidth,attr,omitempty" true (.simple (.uint 32)),
  fld b!"MaxBandwidth" b!"maxBandwidth,attr,omitempty" true (.simple (.uint 32)),
  fld b!"MinWidth" b!"minWidth,attr,omitempty" true (.simple (.uint 32)),
  fld b!"MaxWidth" b!"maxWidth,attr,omitempty" true (.simple (.uint 32)),
  fld b!"MinHeight" b!"minHeight,attr,omitempty" true (.simple (.uint 32)),
  fld b!"MaxHeight" b!"maxHeight,attr,omitempty" true (.simple (.uint 32)),
  fld b!"MinFrameRate" b!"minFrameRate,attr,omitempty" true (.simple .str),
  fld b!"MaxFrameRate" b!"maxFrameRate,attr,omitempty" true (.simple .str),
  fld b!"SegmentAlignment" b!"segmentAlignment,attr,omitempty" true (.simple .bool),
  fld b!"SubsegmentAlignment" b!"subsegmentAlignment,attr,omitempty" true (.simple .bool),
  fld b!"SubsegmentStartsWithSAP" b!"subsegmentStartsWithSAP,attr,omitempty" true (.simple (.uint 32)),
  fld b!"BitstreamSwitching" b!"bitstreamSwitching,attr" true (.ptr (.simple .bool)),
  fld b!"InitializationSetRef" b!"initializationSetRef,attr,omitempty" true (.ptr (.simple .str)),
  fld b!"InitializationPrincipal" b!"initializationPrincipal,attr,omitempty" true (.simple .str),
  emb b!"RepresentationBaseType" b!"" (tRepresentationBaseType),
  fld b!"Accessibilities" b!"Accessibility" true (.slice (.ptr (tDescriptorType))),
  fld b!"Roles" b!"Role" true (.slice (.ptr (tDescriptorType))),
  fld b!"Ratings" b!"Rating" true (.slice (.ptr (tDescriptorType))),
  fld b!"Viewpoints" b!"Viewpoint" true (.slice (.ptr (tDescriptorType))),
  fld b!"ContentComponents" b!"ContentComponent" true (.slice (.ptr (tContentComponentType))),
  fld b!"BaseURLs" b!"BaseURL" true (.slice (.ptr (tBaseURLType))),
  fld b!"RequestParam" b!"RequestParam" true (.slice (.ptr (tExtendedUrlInfoType))),
  fld b!"SegmentBase" b!"SegmentBase" true (.ptr (tSegmentBaseType)),
  fld b!"SegmentList" b!"SegmentList" true (.ptr (tSegmentListType)),
  fld b!"SegmentTemplate" b!"SegmentTemplate" true (.ptr (tSegmentTemplateType)),
  fld b!"Representations" b!"Representation" true (.slice (.ptr (tRepresentationType))),
  fld b!"parent" b!"-" false .hidden]

/-- `SubsetType` (`/repo/mpd/mpd.go` 750-754). -/
def tSubsetType : Typ := mkStruct b!"SubsetType" [
  fld b!"XMLName" b!"Subset" true (.name),
  fld b!"Contains" b!"contains,attr" true (.ptr (.simple .str)),
  fld b!"Id" b!"id,attr,omitempty" true (.simple .str)]

/-- `PreselectionType` (`/repo/mpd/mpd.go` 733-744). -/
def tPreselectionType : Typ := mkStruct b!"PreselectionType" [
  fld b!"XMLName" b!"Preselection" true (.name),
  fld b!"Id" b!"id,attr,omitempty" true (.simple .str),
  fld b!"PreselectionComponents" b!"preselectionComponents,attr" true (.ptr (.simple .str)),
  fld b!"Lang" b!"lang,attr,omitempty" true (.simple .str),
  fld b!"Order" b!"order,attr,omitempty" true (.simple .str),
  fld b!"Accessibilities" b!"Accessibility" true (.slice (.ptr (tDescriptorType))),
  fld b!"Roles" b!"Role" true (.slice (.ptr (tDescriptorType))),
  fld b!"Ratings" b!"Rating" true (.slice (.ptr (tDescriptorType))),
  fld b!"Viewpoints" b!"Viewpoint" true (.slice (.ptr (tDescriptorType))),
  emb b!"RepresentationBaseType" b!"" (tRepresentationBaseType)]

/-- `Period` (`/repo/mpd/mpd.go` 152-180). -/
def tPeriod : Typ := mkStruct b!"Period" [
  fld b!"XMLName" b!"Period" true (.name),
  fld b!"XlinkHref" b!"http://www.w3.org/1999/xlink xlink:href,attr,omitempty" true (.simple .str),
  fld b!"XlinkActuate" b!"http://www.w3.org/1999/xlink xlink:actuate,attr,omitempty" true (.simple .str),
  fld b!"XlinkType" b!"http://www.w3.org/1999/xlink xlink:type,attr,omitempty" true (.simple .str),
  fld b!"XlinkShow" b!"http://www.w3.org/1999/xlink xlink:show,attr,omitempty" true (.simple .str),
  fld b!"Id" b!"id,attr,omitempty" true (.simple .str),
  fld b!"Start" b!"start,attr" true (.ptr (.simple .duration)),
  fld b!"Duration" b!"duration,attr" true (.ptr (.simple .duration)),
  fld b!"BitstreamSwitching" b!"bitstreamSwitching,attr" true (.ptr (.simple .bool)),
  fld b!"MinBufferTime" b!"minBufferTime,attr" true (.ptr (.simple .duration)),
  fld b!"ImportedMPDs" b!"ImportedMPD" true (.slice (.ptr (tImportedMpdType))),
  fld b!"BaseURLs" b!"BaseURL" true (.slice (.ptr (tBaseURLType))),
  fld b!"RequestParam" b!"RequestParam" true (.slice (.ptr (tExtendedUrlInfoType))),
  fld b!"SegmentBase" b!"SegmentBase" true (.ptr (tSegmentBaseType)),
  fld b!"SegmentList" b!"SegmentList" true (.ptr (tSegmentListType)),
  fld b!"SegmentTemplate" b!"SegmentTemplate" true (.ptr (tSegmentTemplateType)),
  fld b!"AssetIdentifier" b!"AssetIdentifier" true (.ptr (tDescriptorType)),
  fld b!"EventStreams" b!"EventStream" true (.slice (.ptr (tEventStreamType))),
  fld b!"ServiceDescriptions" b!"ServiceDescription" true (.slice (.ptr (tServiceDescriptionType))),
  fld b!"ContentProtections" b!"ContentProtection" true (.slice (.ptr (tContentProtectionType))),
  fld b!"AdaptationSets" b!"AdaptationSet" true (.slice (.ptr (tAdaptationSetType))),
  fld b!"Subsets" b!"Subset" true (.slice (.ptr (tSubsetType))),
  fld b!"SupplementalProperties" b!"SupplementalProperty" true (.slice (.ptr (tDescriptorType))),
  fld b!"EmptyAdaptationSets" b!"EmptyAdaptationSet" true (.slice (.ptr (tAdaptationSetType))),
  fld b!"GroupLabels" b!"GroupLabel" true (.slice (.ptr (tLabelType))),
  fld b!"Preselections" b!"Preselection" true (.slice (.ptr (tPreselectionType))),
  fld b!"parent" b!"-" false .hidden]

/-- `RangeType` (`/repo/mpd/mpd.go` 983-986). -/
def tRangeType : Typ := mkStruct b!"RangeType" [
  fld b!"Starttime" b!"starttime,attr" true (.ptr (.simple .duration)),
  fld b!"Duration" b!"duration,attr" true (.ptr (.simple .duration))]

/-- `MetricsType` (`/repo/mpd/mpd.go` 976-980). -/
def tMetricsType : Typ := mkStruct b!"MetricsType" [
  fld b!"Metrics" b!"metrics,attr" true (.simple .str),
  fld b!"Ranges" b!"Range" true (.slice (.ptr (tRangeType))),
  fld b!"Reportings" b!"Reporting" true (.slice (.ptr (tDescriptorType)))]

/-- `LeapSecondInformationType` (`/repo/mpd/mpd.go` 989-993). -/
def tLeapSecondInformationType : Typ := mkStruct b!"LeapSecondInformationType" [
  fld b!"AvailabilityStartLeapOffset" b!"availabilityStartLeapOffset,attr" true (.simple (.int 64)),
  fld b!"NextAvailabilityStartLeapOffset" b!"nextAvailabilityStartLeapOffset,attr,omitempty" true (.simple (.int 64)),
  fld b!"NextLeapChangeTime" b!"nextLeapChangeTime,attr,omitempty" true (.simple .str)]

/-- `MPD` (`/repo/mpd/mpd.go` 87-121). -/
def tMPD : Typ := mkStruct b!"MPD" [
  fld b!"XMLName" b!"MPD" true (.name),
  fld b!"XMLNs" b!"xmlns,attr,omitempty" true (.simple .str),
  fld b!"SchemaLocation" b!"http://www.w3.org/2001/XMLSchema-instance xsi:schemaLocation,attr,omitempty" true (.simple .str),
  fld b!"Id" b!"id,attr,omitempty" true (.simple .str),
  fld b!"Profiles" b!"profiles,attr" true (.simple .str),
  fld b!"Type" b!"type,attr,omitempty" true (.ptr (.simple .str)),
  fld b!"AvailabilityStartTime" b!"availabilityStartTime,attr,omitempty" true (.simple .str),
  fld b!"AvailabilityEndTime" b!"availabilityEndTime,attr,omitempty" true (.simple .str),
  fld b!"PublishTime" b!"publishTime,attr,omitempty" true (.simple .str),
  fld b!"MediaPresentationDuration" b!"mediaPresentationDuration,attr" true (.ptr (.simple .duration)),
  fld b!"MinimumUpdatePeriod" b!"minimumUpdatePeriod,attr" true (.ptr (.simple .duration)),
  fld b!"MinBufferTime" b!"minBufferTime,attr" true (.ptr (.simple .duration)),
  fld b!"TimeShiftBufferDepth" b!"timeShiftBufferDepth,attr" true (.ptr (.simple .duration)),
  fld b!"SuggestedPresentationDelay" b!"suggestedPresentationDelay,attr" true (.ptr (.simple .duration)),
  fld b!"MaxSegmentDuration" b!"maxSegmentDuration,attr" true (.ptr (.simple .duration)),
  fld b!"MaxSubsegmentDuration" b!"maxSubsegmentDuration,attr" true (.ptr (.simple .duration)),
  fld b!"ProgramInformation" b!"ProgramInformation" true (.slice (.ptr (tProgramInformationType))),
  fld b!"BaseURL" b!"BaseURL" true (.slice (.ptr (tBaseURLType))),
  fld b!"Location" b!"Location" true (.slice (.ptr (tLocationType))),
  fld b!"PatchLocation" b!"PatchLocation" true (.slice (.ptr (tPatchLocationType))),
  fld b!"RequestParam" b!"RequestParam" true (.slice (.ptr (tExtendedUrlInfoType))),
  fld b!"ServiceDescription" b!"ServiceDescription" true (.slice (.ptr (tServiceDescriptionType))),
  fld b!"InitializationSet" b!"InitializationSet" true (.slice (.ptr (tInitializationSetType))),
  fld b!"InitializationGroup" b!"InitializationGroup" true (.slice (.ptr (tUIntVWithIDType))),
  fld b!"InitializationPresentation" b!"InitializationPresentation" true (.slice (.ptr (tUIntVWithIDType))),
  fld b!"ContentProtection" b!"ContentProtection" true (.slice (.ptr (tContentProtectionType))),
  fld b!"Periods" b!"Period" true (.slice (.ptr (tPeriod))),
  fld b!"Metrics" b!"Metrics" true (.slice (.ptr (tMetricsType))),
  fld b!"EssentialProperties" b!"EssentialProperty" true (.slice (.ptr (tDescriptorType))),
  fld b!"SupplementalProperties" b!"SupplementalProperty" true (.slice (.ptr (tDescriptorType))),
  fld b!"UTCTimings" b!"UTCTiming" true (.slice (.ptr (tDescriptorType))),
  fld b!"LeapSecondInformation" b!"LeapSecondInformation" true (.ptr (tLeapSecondInformationType)),
  fld b!"ContentSteering" b!"ContentSteering" true (.ptr (tContentSteeringType))]

end Verif.Bind
