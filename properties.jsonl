{"id": "C01", "title": "Duration rendering denotes the duration rounded to milliseconds", "statement": "For every Duration d, d.String() is a lexically valid xs:duration whose value, read with the XSD rules and independently of ParseDuration, is d rounded to the nearest millisecond (halves away from zero); durations below half a millisecond are rendered exactly, with nanosecond precision.", "quantifier": "all 2^64 int64 durations", "why_tests_cant": "The domain has 2^64 values and the interesting ones are at rounding and carry boundaries; tests sample a handful of round values.", "anchors": ["mpd/duration.go: Duration.String", "mpd/duration.go: fmtFrac", "mpd/duration.go: fmtInt"]}
{"id": "C02", "title": "Duration rendering never overruns its buffer", "statement": "Rendering any Duration, including the most negative one, writes at most 32 bytes, so the fixed stack buffer is never overrun and String never panics.", "quantifier": "all int64 durations", "why_tests_cant": "Absence of an index panic for every value cannot be sampled.", "anchors": ["mpd/duration.go: Duration.String", "mpd/duration.go: fmtFrac", "mpd/duration.go: fmtInt"]}
{"id": "C03", "title": "Parsing an accepted duration gives the value it denotes", "statement": "Whenever ParseDuration accepts a string, the string is a P-duration with day/hour/minute fields as decimal integers and a decimal seconds field, and the returned value is less than 5/3 ns below and less than 2/3 ns above days*86400 + hours*3600 + minutes*60 + seconds; it is that value or one nanosecond less when the value is a whole number of nanoseconds, and exact when the seconds are a whole number; provided the seconds field is at most 2^51 ns (26 days) and the sum fits in int64 nanoseconds.", "quantifier": "all byte strings", "why_tests_cant": "The set of strings is infinite and float rounding errors appear only for particular decimals.", "anchors": ["mpd/duration.go: ParseDuration"]}
{"id": "C04", "title": "The set of accepted duration strings is exactly a stated grammar", "statement": "ParseDuration accepts every string of the documented form P[nD][T[nH][nM][nS]] with at least one field whose integers fit in 64 bits, and rejects every string outside a stated (slightly larger) grammar; in particular every string with a sign, with fields out of order or repeated, with hours/minutes/seconds before T, or with a fraction on anything but seconds.", "quantifier": "all byte strings", "why_tests_cant": "Acceptance and rejection are claims about all strings.", "anchors": ["mpd/duration.go: ParseDuration"]}
{"id": "C05", "title": "ParseDuration never returns a negative duration", "statement": "A successful ParseDuration returns a non-negative duration equal to the denoted value, because negative durations are documented as rejected; overflow of the nanosecond counter is not silently wrapped.", "quantifier": "all byte strings", "why_tests_cant": "Only strings with huge fields wrap around; no finite sample rules that out.", "anchors": ["mpd/duration.go: ParseDuration"]}
{"id": "C06", "title": "Durations survive a write/read cycle and do not drift", "statement": "For every non-negative duration, rendering it, parsing the result and rendering again gives the same string as rendering once, and the parsed value differs from the duration rounded to milliseconds by at most one nanosecond; so repeated read/write cycles of a manifest reach a fixed point after one step.", "quantifier": "all non-negative int64 durations below the float-exact range, and any number of cycles", "why_tests_cant": "Drift would show only for particular decimals and after repetition.", "anchors": ["mpd/duration.go: Duration.String", "mpd/duration.go: ParseDuration", "mpd/duration.go: MarshalXMLAttr", "mpd/duration.go: UnmarshalXMLAttr"]}
{"id": "C07", "title": "Period start is the one ISO/IEC 23009-1 5.3.2.1 defines", "statement": "For every MPD with parent links set and every period in it, GetStart returns the explicit start if present, otherwise the start of the previous period plus its duration, otherwise zero for the first period of a static MPD, and otherwise an error; it never returns a value where the rule gives none nor an error where it gives one.", "quantifier": "all MPDs with any number of periods, any combination of present/absent start, duration and type", "why_tests_cant": "The recursion depth and the number of attribute combinations are unbounded.", "anchors": ["mpd/period.go: GetStart", "mpd/period.go: GetIndex", "mpd/mpd.go: GetType"]}
{"id": "C08", "title": "Computing a period start terminates", "statement": "GetStart returns for every period of every MPD whose periods have their parent set to that MPD, however long the chain of periods without an explicit start is.", "quantifier": "all MPDs, any number of periods, including a period object listed several times", "why_tests_cant": "Termination for unbounded chains cannot be tested.", "anchors": ["mpd/period.go: GetStart", "mpd/period.go: GetIndex"]}
{"id": "C09", "title": "Consecutive periods tile the timeline", "statement": "If a period has no explicit duration and is not the last one, and both its GetStart and GetDuration succeed, then their sum is the next period's GetStart; and if the next period has no explicit start while this one has a duration, the next start is this start plus this duration.", "quantifier": "all MPDs and all adjacent pairs of periods", "why_tests_cant": "Ranges over all manifests and adjacent pairs.", "anchors": ["mpd/period.go: GetStart", "mpd/period.go: GetDuration"]}
{"id": "C10", "title": "Period duration follows the documented derivation", "statement": "GetDuration returns the explicit duration when present; otherwise the difference between the next period's explicit start (or the media presentation duration for the last period of a static MPD) and this period's explicit start; otherwise a specific error; a single-period static MPD with a media presentation duration yields that duration.", "quantifier": "all MPDs and periods", "why_tests_cant": "All combinations of optional attributes and positions.", "anchors": ["mpd/period.go: GetDuration"]}
{"id": "C11", "title": "Period type classification is total and consistent with start derivation", "statement": "For every period of an MPD with parent links set, GetType returns one of the four documented types and no error, depending only on the presence of start, previous duration, own duration, minimumUpdatePeriod, next start and MPD type as documented; a period classified early-available never has a derivable start.", "quantifier": "all MPDs and periods", "why_tests_cant": "All combinations and positions.", "anchors": ["mpd/period.go: GetType", "mpd/period.go: GetIndex"]}
{"id": "C12", "title": "Period index lookup is by identity and returns the first position", "statement": "GetIndex returns i without error exactly when the period is the i-th entry of its parent's list and no earlier entry is the same object; otherwise it returns -1 with the parent-not-set or period-not-found error.", "quantifier": "all object graphs", "why_tests_cant": "Identity and aliasing: any list, any repetition.", "anchors": ["mpd/period.go: GetIndex"]}
{"id": "C13", "title": "Parent links are established and maintained", "statement": "After SetParents on an MPD, every period, adaptation set, representation and sub-representation reachable from it (each occurring once) reports as Parent the object that lists it; and starting from a linked tree, any sequence of AppendPeriod, AppendAdaptationSet, AppendRepresentation and AppendSubRepresentation with new objects keeps every link correct.", "quantifier": "all trees and all operation sequences", "why_tests_cant": "Unbounded trees and histories.", "anchors": ["mpd/parents.go: MPD.SetParents", "mpd/parents.go: AppendPeriod", "mpd/parents.go: AppendAdaptationSet", "mpd/parents.go: AppendRepresentation", "mpd/parents.go: AppendSubRepresentation"]}
{"id": "C14", "title": "Clones are isolated and correctly linked", "statement": "Clone of an MPD, Period or AdaptationSet yields a structure with the same content, sharing no object with the original, whose parent links point inside the clone (the root's parent is unset); no later mutation of either side is visible through the other.", "quantifier": "all trees, all later mutations", "why_tests_cant": "Aliasing claims range over all object graphs and later writes.", "anchors": ["mpd/mpd.go: Clone", "mpd/period.go: Period.Clone", "mpd/mpd.go: AdaptationSetType.Clone"]}
{"id": "C15", "title": "Absolute start is availability start plus period start", "statement": "AbsoluteStart fails with the documented error when availabilityStartTime is absent or unparsable or the period start is not derivable, and otherwise is the sum of availabilityStartTime in seconds and the period start in seconds.", "quantifier": "all MPDs and periods", "why_tests_cant": "All manifests and error combinations.", "anchors": ["mpd/period.go: AbsoluteStart"]}
{"id": "C16", "title": "AddProfile behaves like adding to an ordered set", "statement": "For every profile list and every non-empty comma-free profile: after AddProfile the profile is a member, all earlier members keep their order and multiplicity, nothing else is added, and adding it again changes nothing; any sequence of additions leaves each added profile exactly once.", "quantifier": "all lists, profiles and sequences of additions", "why_tests_cant": "Histories of any length over all strings.", "anchors": ["mpd/mpd.go: ListOfProfilesType.AddProfile"]}
{"id": "C17", "title": "Template substitution replaces exactly the identifiers", "statement": "GetInit and GetMedia return the template with each $RepresentationID$ and $Bandwidth$ identifier replaced by the representation's id and decimal bandwidth and all other text, including $Number$ and $Time$, unchanged, for every well-formed template; text coming from the id is never itself substituted.", "quantifier": "all templates, ids and bandwidths", "why_tests_cant": "All strings; re-substitution needs adversarial ids.", "anchors": ["mpd/mpd.go: GetInit", "mpd/mpd.go: GetMedia"]}
{"id": "C18", "title": "Representation accessors inherit from the adaptation set", "statement": "GetMimeType, GetCodecs, GetContentProtections and GetSegmentTemplate return the representation's own value when set and the adaptation set's value otherwise; with the parent link set they never panic; GetInit and GetMedia report a missing parent or a missing template as an error.", "quantifier": "all representations and adaptation sets", "why_tests_cant": "All combinations, including missing links.", "anchors": ["mpd/mpd.go: RepresentationType.GetMimeType", "mpd/mpd.go: GetCodecs", "mpd/mpd.go: GetContentProtections", "mpd/mpd.go: GetSegmentTemplate"]}
{"id": "C19", "title": "SegmentBase ranges are adjacent and have the given sizes", "statement": "SetSegmentBase(initSize, sidxSize, exact) yields an initialization range of exactly initSize bytes from 0 and an index range of exactly sidxSize bytes starting right after it.", "quantifier": "all pairs of 32-bit sizes", "why_tests_cant": "2^64 pairs; boundary behaviour at zero and at overflow.", "anchors": ["mpd/mpd.go: SetSegmentBase"]}
{"id": "C20", "title": "Timescale getter and setter agree", "statement": "After SetTimescale(t), GetTimescale returns t for every t, unset means 1, and setting the default value 1 leaves the attribute absent.", "quantifier": "all uint32 timescales", "why_tests_cant": "All values.", "anchors": ["mpd/mpd.go: SegmentBaseType.GetTimescale", "mpd/mpd.go: SetTimescale"]}
{"id": "C21", "title": "Integral UTC date-times survive a round trip", "statement": "For every whole number of seconds representable as nanoseconds in an int64, ConvertToSeconds(ConvertToDateTimeS(s)) is exactly s; for milliseconds the text denotes exactly that instant, also for instants before 1970.", "quantifier": "all seconds / milliseconds in the int64-nanosecond range", "why_tests_cant": "Every leap year, month boundary and negative instant.", "anchors": ["mpd/io.go: ConvertToDateTimeS", "mpd/io.go: ConvertToDateTimeMS", "mpd/io.go: ConvertToSeconds"]}
{"id": "C22", "title": "Availability offsets keep infinity", "statement": "A FloatInf64 of +Inf is written as INF and INF is read as +Inf; every other value is written in plain decimal notation and read back unchanged.", "quantifier": "all float64 values", "why_tests_cant": "All float values.", "anchors": ["mpd/mpd.go: FloatInf64.MarshalXMLAttr", "mpd/mpd.go: FloatInf64.UnmarshalXMLAttr"]}
{"id": "C23", "title": "Escaping and reading text are inverse", "statement": "For every string of legal XML characters, the bytes written for it as an attribute value, read back by the decoder, give the same string; likewise as character data.", "quantifier": "all valid strings of any length", "why_tests_cant": "All strings, including \\r, ]]>, quotes, multi-byte characters and their adjacency.", "anchors": ["xml/xml.go: EscapeString", "xml/xml.go: escapeText", "xml/xml.go: Decoder.text"]}
{"id": "C24", "title": "Escaped output cannot inject markup", "statement": "For every byte string, even invalid UTF-8 or control characters, the escaped form contains no '<', '>', '\"' or \"'\", every '&' starts one of the fixed references, and the decoder accepts it.", "quantifier": "all byte strings", "why_tests_cant": "All adversarial byte strings.", "anchors": ["xml/xml.go: EscapeString", "xml/xml.go: escapeText"]}
{"id": "C25", "title": "Reading terminates on every input", "statement": "Every call that reads the next token of an input either consumes at least one byte, delivers a pending end tag, or reports an error or end of input; so unmarshalling any byte string terminates.", "quantifier": "all byte strings", "why_tests_cant": "Termination on all inputs; adversarial inputs.", "anchors": ["xml/xml.go: rawToken", "xml/xml.go: Decoder.text"]}
{"id": "C26", "title": "Tokens are properly nested", "statement": "The start and end tokens delivered for any input form a balanced sequence with equal names (and namespaces) at both ends; an unmatched or missing end tag is reported as an error.", "quantifier": "all inputs", "why_tests_cant": "All inputs of any nesting depth.", "anchors": ["xml/xml.go: Token", "xml/xml.go: popElement", "xml/xml.go: pushElement"]}
{"id": "C27", "title": "Namespace scoping in the decoder", "statement": "Each element and attribute name is resolved with the innermost enclosing declaration of its prefix, unprefixed attributes get no namespace, and when an element ends the bindings are exactly those before it started.", "quantifier": "all documents, any nesting and redeclaration", "why_tests_cant": "All nestings and shadowing patterns.", "anchors": ["xml/xml.go: Token", "xml/xml.go: translate", "xml/xml.go: popElement", "xml/xml.go: pushNs"]}
{"id": "C28", "title": "Written documents are well-formed", "statement": "Whenever writing a value succeeds, the output has balanced, equally named start and end tags, attribute values and text are escaped, and there is one root element; the decoder accepts it.", "quantifier": "all values of the manifest types", "why_tests_cant": "All trees.", "anchors": ["xml/marshal.go: marshalValue", "xml/marshal.go: writeStart", "xml/marshal.go: writeEnd"]}
{"id": "C29", "title": "Written names resolve to the intended namespaces", "statement": "In the output, every element or attribute that was given a namespace resolves, by the namespace rules, to that namespace and local name.", "quantifier": "all element trees with namespaces and preferred prefixes", "why_tests_cant": "All nestings and prefix collisions.", "anchors": ["xml/marshal.go: writeStart", "xml/marshal.go: createPrefix", "xml/marshal.go: getPrefix"]}
{"id": "C30", "title": "Manifests survive a write/read cycle", "statement": "For every manifest value whose strings are legal XML text and whose numbers are renderable, reading back what was written yields an equal manifest, with the exceptions listed in the statement.", "quantifier": "all manifest values, any number of periods, sets, representations, descriptors, events", "why_tests_cant": "All values of an unbounded recursive data type.", "anchors": ["xml/marshal.go: Marshal", "xml/read.go: Unmarshal", "mpd/io.go: WriteToString", "mpd/io.go: ReadFromString"]}
{"id": "C31", "title": "Unknown content is ignored and harmless", "statement": "Adding elements, attributes, comments or processing instructions that no field matches anywhere in a document does not change the manifest that is read.", "quantifier": "all documents and all insertions of unknown content", "why_tests_cant": "All documents and insertions.", "anchors": ["xml/read.go: unmarshal", "xml/read.go: unmarshalPath", "xml/read.go: Skip"]}
{"id": "C32", "title": "Attribute order is irrelevant", "statement": "Permuting the attributes of any element in a document does not change the manifest that is read (for attributes with distinct names that target distinct fields).", "quantifier": "all documents and permutations", "why_tests_cant": "All permutations.", "anchors": ["xml/read.go: unmarshal", "xml/typeinfo.go: attrs"]}
{"id": "C33", "title": "Element order is preserved within a list and irrelevant across lists", "statement": "Repeated child elements appear in the read list in document order, and interleaving children of different names differently does not change the manifest.", "quantifier": "all documents and interleavings", "why_tests_cant": "All interleavings.", "anchors": ["xml/read.go: unmarshal", "xml/read.go: unmarshalPath"]}
{"id": "C34", "title": "Write reports exactly the bytes accepted by the writer", "statement": "For every destination writer, including ones that fail or write short at any point, the byte count returned by Write/WriteXML is the number of bytes the destination accepted, and a nil error implies that header and encoding were delivered completely and in order.", "quantifier": "all writers (all failure schedules), all manifests", "why_tests_cant": "Failure can occur at any byte.", "anchors": ["mpd/io.go: WriteXML", "mpd/io.go: countingWriter.Write", "xml/marshal.go: printer.Write"]}
{"id": "C35", "title": "Pooled encoders carry no state between uses", "statement": "The bytes produced by a Write do not depend on any earlier Write through the pool, including ones that failed half-way, used another indentation, or ran concurrently.", "quantifier": "all histories and interleavings of writes", "why_tests_cant": "Histories and schedules are unbounded.", "anchors": ["xml/marshal.go: AcquireEncoder", "xml/marshal.go: ReleaseEncoder", "mpd/io.go: WriteXML"]}
{"id": "C36", "title": "String and stream output agree", "statement": "WriteToString returns precisely what Write sends to a writer; with the header flag the output is the fixed XML declaration followed by the output without the flag; on error the empty string is returned.", "quantifier": "all manifests, indents and flags", "why_tests_cant": "All values.", "anchors": ["mpd/io.go: WriteToString", "mpd/io.go: Write", "mpd/io.go: WriteXML"]}
{"id": "C37", "title": "Name interning is transparent and bounded", "statement": "Reading names through the decoder's intern table always yields the name that was in the input, and the table never holds more than 1024 entries, for any sequence of names.", "quantifier": "all sequences of names", "why_tests_cant": "Histories of any length.", "anchors": ["xml/xml.go: internBytes"]}
{"id": "C38", "title": "Indentation does not change what is read", "statement": "A manifest written with any whitespace indentation is read back as the same manifest as when written without indentation.", "quantifier": "all manifests and whitespace indents", "why_tests_cant": "All values.", "anchors": ["xml/marshal.go: writeIndent", "mpd/io.go: Write"]}
{"id": "C39", "title": "A manifest that was read can be written", "statement": "For every byte string that is read successfully, writing the resulting manifest succeeds and does not panic.", "quantifier": "all byte strings", "why_tests_cant": "All inputs.", "anchors": ["xml/marshal.go: marshalValue", "xml/marshal.go: marshalAttr", "mpd/mpd.go: AlternativeMPDReplaceEventType"]}
{"id": "C40", "title": "All schema elements with a field can be read", "statement": "An element whose name is the declared name of a field of the enclosing type is read into that field without an error about its name.", "quantifier": "all fields of all manifest types", "why_tests_cant": "All types and all documents.", "anchors": ["mpd/mpd.go: LabelType", "mpd/mpd.go: UIntVWithIDType", "mpd/mpd.go: UIntPairsWithIDType", "xml/read.go: unmarshal"]}
{"id": "C41", "title": "Integers out of range are rejected, never truncated", "statement": "An integer attribute or element is read as the integer its decimal text, without surrounding white space, denotes when that fits in the field's type (an empty text as 0) and is an error otherwise; the written decimal text denotes the value.", "quantifier": "all integer fields, all texts, all values", "why_tests_cant": "All numerals.", "anchors": ["xml/read.go: copyValue", "xml/marshal.go: marshalSimple"]}
{"id": "C42", "title": "SCTE-35 namespace is passed through", "statement": "An SCTE-35 section read with the canonical or the 2016 namespace (or any other) is written with that same namespace on the same elements.", "quantifier": "all sections and namespace URIs", "why_tests_cant": "All trees and URIs.", "anchors": ["mpd/scte35.go: SpliceInfoSectionType", "xml/marshal.go: writeStart"]}
{"id": "C43", "title": "Uniform splice info access", "statement": "SpliceInfo returns the section inside Signal if there is one, otherwise the direct section, otherwise nil; IsSCTE35 holds for exactly the three SCTE-35 scheme URIs.", "quantifier": "all events and streams", "why_tests_cant": "All combinations and all strings.", "anchors": ["mpd/scte35.go: SpliceInfo", "mpd/scte35.go: IsSCTE35"]}
{"id": "C44", "title": "Type information cache is transparent", "statement": "Using cached type information gives the same result as recomputing it, for every order of first uses and any concurrent schedule of them.", "quantifier": "all schedules of cache accesses", "why_tests_cant": "Schedules are unbounded.", "anchors": ["xml/typeinfo.go: getTypeInfo", "xml/typeinfo.go: getTypeImpl"]}
{"id": "C45", "title": "Reading is all-or-nothing", "statement": "ReadFromString and MPDFromBytes return either an error and no manifest, or a manifest with all parent links set and no error; bytes after the end of the root element do not matter.", "quantifier": "all byte strings", "why_tests_cant": "All inputs.", "anchors": ["mpd/io.go: MPDFromBytes", "mpd/io.go: ReadFromString", "mpd/io.go: ReadFromFile"]}
{"id": "C46", "title": "Namespaced attributes of manifest types are written with their namespace", "statement": "Every attribute field whose tag carries a prefix (xlink:href, cenc:default_KID, ...) is written with a namespace-qualified name.", "quantifier": "all fields of all manifest types", "why_tests_cant": "All types and all values.", "anchors": ["mpd/mpd.go: AdaptationSetType", "mpd/mpd.go: SegmentListType", "xml/marshal.go: writeStart"]}
{"id": "C47", "title": "Whole seconds convert exactly to durations", "statement": "Seconds2DurPtr(s) is exactly s seconds for every s whose nanosecond count fits in int64; beyond that it wraps silently.", "quantifier": "all int seconds", "why_tests_cant": "All 2^64 values.", "anchors": ["mpd/ptrs.go: Seconds2DurPtr"]}
{"id": "C48", "title": "Start tags do not repeat an attribute", "statement": "In the output of a write no start tag contains the same attribute name twice (XML 1.0, WFC: Unique Att Spec).", "quantifier": "all manifests, in particular all that were read from a document", "why_tests_cant": "Only particular combinations of fields repeat a name.", "anchors": ["xml/marshal.go: marshalAttr", "mpd/mpd.go: AdaptationSetType", "mpd/scte35.go: SpliceInfoSectionType"]}
{"id": "C49", "title": "Reading, writing and reading again gives the same manifest", "statement": "A manifest that was read from a document, in whatever way that document was written, can be written with any indentation and read back as the same manifest.", "quantifier": "all documents that are read, all indents, with and without header", "why_tests_cant": "All documents.", "anchors": ["mpd/io.go: MPDFromBytes", "mpd/io.go: Write", "xml/read.go: unmarshal", "xml/marshal.go: marshalValue"]}
{"id": "C50", "title": "Content of SCTE-35 Ext elements is kept byte by byte", "statement": "The bytes between the tags of an Ext element of a document are stored in InnerXML as they are, and are between the tags of the Ext element that is written, whatever they contain and whatever the indentation; what is stored is always well-formed content.", "quantifier": "all documents, all indents", "why_tests_cant": "All contents: comments, CDATA, any quoting and nesting.", "anchors": ["mpd/scte35.go: ExtType", "xml/read.go: unmarshal", "xml/marshal.go: marshalStruct"]}
{"id": "C51", "title": "Content of SCTE-35 Ext elements keeps its meaning", "statement": "After reading and writing a document, a reader finds the same elements and attributes, with the same namespaces, inside an Ext element as before.", "quantifier": "all documents, all indents", "why_tests_cant": "Depends on where prefixes are declared.", "anchors": ["mpd/scte35.go: ExtType", "xml/read.go: unmarshal", "xml/marshal.go: marshalStruct"]}
{"id": "C52", "title": "Field tables of struct types follow the declarations", "statement": "The table that getTypeInfo builds for a type has no two entries for the same name, every usable field (own or promoted from an embedded struct) is in it unless a shallower field has its name, nothing else is in it, and element fields are entered under the name their own type declares.", "quantifier": "all struct types for which a table is made; all types of the library", "why_tests_cant": "All declarations, and every order of embedding.", "anchors": ["xml/typeinfo.go: getTypeInfo", "xml/typeinfo.go: addFieldInfo", "xml/typeinfo.go: structFieldInfo"]}
{"id": "C53", "title": "Indented output has one line per element, indented by depth", "statement": "With a prefix or an indent, every tag is preceded by exactly the white space its depth asks for, or by none when it closes an element without children elements; apart from that white space the output is the same as without indentation, and whether writing succeeds does not depend on it.", "quantifier": "all manifests, all prefixes and indents", "why_tests_cant": "All nestings and values.", "anchors": ["xml/marshal.go: writeIndent", "xml/marshal.go: writeStart", "xml/marshal.go: writeEnd", "mpd/io.go: Write"]}
{"id": "C54", "title": "Well-formed documents are read as XML says", "statement": "For every well-formed document in UTF-8, the decoder finds the root element with the elements, attributes and texts that XML 1.0 and Namespaces in XML give it: references replaced, CDATA sections taken as text, line ends normalised, attribute values normalised, comments and processing instructions left out, names expanded, the document type declaration with its internal subset taken into account.", "quantifier": "all well-formed documents (with or without byte order mark, with all that can be in an internal subset)", "why_tests_cant": "All spellings of all documents.", "anchors": ["xml/xml.go: rawToken", "xml/xml.go: text", "xml/xml.go: nsname", "xml/xml.go: attrval", "xml/xml.go: Token"]}
{"id": "C55", "title": "The spelling of a document does not matter", "statement": "Two well-formed documents that say the same (other quotes, white space in tags, references or CDATA instead of literal text, empty-element tags or not, comments, processing instructions, line ends, XML declaration, document type declaration, byte order mark) are unmarshalled to the same value or the same error, apart from innerxml fields, which are copies of the input.", "quantifier": "all pairs of well-formed documents with the same information content, all struct types", "why_tests_cant": "All pairs of documents.", "anchors": ["mpd/io.go: MPDFromBytes", "xml/read.go: unmarshal", "xml/xml.go: rawToken"]}
{"id": "C56", "title": "Namespace prefixes are only abbreviations", "statement": "Two well-formed documents whose elements and attributes have the same expanded names, values and content are unmarshalled to the same value or the same error, whatever the prefixes and wherever the namespaces are declared, apart from the fields that record declarations (xmlns, any attributes, inner XML).", "quantifier": "all pairs of well-formed documents with the same expanded names", "why_tests_cant": "All pairs of documents and all choices of prefixes.", "anchors": ["xml/read.go: unmarshal", "xml/xml.go: translate", "mpd/mpd.go: MPD.XMLNs"]}
{"id": "C57", "title": "Float seconds become durations accurately", "statement": "Seconds2DurPtrFloat64 gives the duration nearest to the given number of seconds, to within half a microsecond and the rounding of one multiplication; more seconds never give a shorter duration; a duration of whole microseconds converted to seconds and back is unchanged.", "quantifier": "all finite numbers of seconds up to 9e9 in size; all durations of whole microseconds", "why_tests_cant": "All floats; rounding errors show only at particular values.", "anchors": ["mpd/ptrs.go: Seconds2DurPtrFloat64", "mpd/duration.go: Seconds"]}
{"id": "C58", "title": "Manifests made with the constructors survive writing and reading", "statement": "A manifest put together with NewMPD, NewPeriod, NewAdaptationSet…, New…Representation…, NewBaseURL, NewRole and the append methods, from texts of XML characters and any numbers, is written without error and read back as the same manifest, with any indentation.", "quantifier": "all such programs: any number of periods, adaptation sets and representations, all texts of XML characters, all integers", "why_tests_cant": "All combinations and all texts.", "anchors": ["mpd/mpd.go: NewMPD", "mpd/mpd.go: NewAdaptationSetWithParams", "mpd/mpd.go: NewVideoRepresentation", "mpd/mpd.go: NewAudioRepresentation", "mpd/parents.go: AppendPeriod", "mpd/io.go: Write"]}
{"id": "C59", "title": "The name of a period type tells the type", "statement": "The String of a period type that GetType returns without an error is different for different types, and is not that of PTBad.", "quantifier": "all manifests and periods", "why_tests_cant": "All combinations of attributes.", "anchors": ["mpd/period.go: PeriodType.String", "mpd/period.go: GetType"]}
{"id": "C60", "title": "What the constructors write", "statement": "A manifest put together with the constructors, the append methods and SetSegmentBase is written as exactly the expected text: every value in the attribute or element named after it, in the order of the declarations, escaped, empty optional values left out, numbers modulo 2^32.", "quantifier": "all such programs: any number of periods, adaptation sets and representations, all byte strings, all integers, all int64 durations", "why_tests_cant": "All combinations and all texts.", "anchors": ["mpd/mpd.go: NewMPD", "mpd/mpd.go: NewVideoRepresentation", "mpd/mpd.go: NewAudioRepresentation", "mpd/mpd.go: SetSegmentBase", "xml/marshal.go: marshalValue", "xml/xml.go: escapeText", "mpd/io.go: Write"]}
{"id": "C61", "title": "SCTE-35 elements made with the constructors are in the SCTE-35 namespace", "statement": "In the document written for a manifest, every SCTE-35 element that was made with a New... function is in the SCTE-35 namespace, and the event is read back as the same.", "quantifier": "all manifests made with the constructors, struct literals where there is no constructor, assignments and appends", "why_tests_cant": "All nestings of the 28 SCTE-35 types.", "anchors": ["mpd/scte35.go: canonicalSCTE35Name", "mpd/scte35.go: NewSignal", "mpd/scte35.go: NewSpliceInsert", "mpd/scte35.go: NewSpliceTime", "xml/marshal.go: marshalValue", "xml/marshal.go: writeStart"]}
{"id": "C62", "title": "Comments, processing instructions and directives written with EncodeToken are read back", "statement": "A comment, processing instruction or directive that EncodeToken accepts is returned by the decoder as the same token, wherever it stands; EncodeToken refuses exactly those that would end early or have unmatched brackets.", "quantifier": "all byte strings, all states of the encoder, any text afterwards", "why_tests_cant": "All byte strings; the interplay of quotes, brackets and dashes.", "anchors": ["xml/marshal.go: EncodeToken", "xml/marshal.go: isValidDirective", "xml/xml.go: rawToken"]}
{"id": "C63", "title": "A document written token by token is read back as the same tokens", "statement": "If start and end elements match and names are well formed, EncodeToken accepts every token, Close returns no error, and the decoder returns what was written, with namespaces resolved and adjacent text joined; without matching start and end elements EncodeToken or Close returns an error.", "quantifier": "all lists of tokens, any indentation of white space, any state of the output buffer", "why_tests_cant": "All nestings, names and namespace declarations.", "anchors": ["xml/marshal.go: EncodeToken", "xml/marshal.go: writeStart", "xml/marshal.go: writeEnd", "xml/marshal.go: Close", "xml/xml.go: Token"]}
{"id": "C64", "title": "The position of a token and the line of an error are right", "statement": "After each token InputOffset is the number of bytes read and InputPos the line and column where the next token begins. The line in a syntax error is a line of the document, the one the decoder has come to; a document with the same lines up to there has the same error after the same tokens; for an illegal character it is the line the character is in.", "quantifier": "all byte strings, any number of tokens, any text after the line of the error", "why_tests_cant": "All documents; bytes that are put back (ungetc) at every kind of token, line feeds among them.", "anchors": ["xml/xml.go: getc", "xml/xml.go: ungetc", "xml/xml.go: mustgetc", "xml/xml.go: InputOffset", "xml/xml.go: InputPos", "xml/xml.go: syntaxError", "xml/xml.go: rawToken", "xml/xml.go: text", "xml/xml.go: readName"]}
{"id": "C65", "title": "What is kept for innerxml is the input between two tokens", "statement": "When Unmarshal begins to keep the input after the start tag of an element with an innerxml field, the bytes between two values of savedOffset are exactly the bytes of the document between the two tokens, also for nested elements.", "quantifier": "all byte strings, any number of tokens before, between and after", "why_tests_cant": "All documents; bytes that are put back must not be lost, nor counted twice.", "anchors": ["xml/xml.go: savedOffset", "xml/xml.go: getc", "xml/read.go: unmarshal"]}
{"id": "C66", "title": "Unmarshal reads the input as a stream", "statement": "Unmarshal, which takes one token at a time from the input and keeps the bytes of innerxml elements in a buffer as it goes, returns what the document as a whole determines: the same value (with the buffer released at the end) or the same error. A syntax error carries the line the decoder had come to, and depends on nothing after that line.", "quantifier": "all byte strings, all struct types, any text after the line of the error", "why_tests_cant": "All documents; all nestings of innerxml elements share one buffer; all ways to go on after an error.", "anchors": ["xml/read.go: Decode", "xml/read.go: DecodeElement", "xml/read.go: unmarshal", "xml/read.go: Skip", "xml/xml.go: Token", "xml/xml.go: savedOffset", "xml/xml.go: syntaxError"]}
{"id": "C67", "title": "A failing reader is reported, never mistaken for the end of the document", "statement": "When the reader given to a decoder fails with an error of its own after some bytes, Decode returns that error, unless what it returns (a value or another error) is already settled by the bytes before the failure, whatever would have followed.", "quantifier": "all byte strings before the failure, all continuations, all struct types", "why_tests_cant": "A network can fail at every byte of every document; the error passes through all the loops of the decoder.", "anchors": ["xml/xml.go: getc", "xml/xml.go: mustgetc", "xml/xml.go: text", "xml/xml.go: Token", "xml/xml.go: rawToken", "xml/read.go: Decode"]}
{"id": "C68", "title": "The number of steps of Unmarshal is linear in the length of the document", "statement": "Unmarshal of L bytes, if it returns, whether with a value or an error, calls Token at most 2L+1 times, and getc and ungetc together at most 13L+10 times; a single call of Token takes at most 5 such steps per byte and 10 more.", "quantifier": "all byte strings, all struct types", "why_tests_cant": "All documents, hostile ones included; bytes that are put back are read again by other loops.", "anchors": ["xml/xml.go: getc", "xml/xml.go: ungetc", "xml/xml.go: rawToken", "xml/xml.go: Token", "xml/read.go: unmarshal", "xml/read.go: Skip"]}
{"id": "C69", "title": "What the document says is in the manifest, and nothing else", "statement": "If no element for a single field is repeated, Unmarshal returns a value exactly if it is the one the document says, field by field: every attribute for a field is readable and the last one counts (none: the zero value), a list has one entry for each of its elements in document order, a pointer is set exactly if there is an attribute or an element for it, text and raw content are those of the element, other attributes are kept only where a field asks for them, and an embedded pointer is set exactly if there is something behind it.", "quantifier": "all documents, all struct types of the package and all others with fields of the same shapes, all values", "why_tests_cant": "One declarative description of reading for all documents; the decoder gets there by loops over tokens that update fields.", "anchors": ["xml/read.go: unmarshal", "xml/read.go: unmarshalAttr", "xml/read.go: unmarshalPath", "xml/read.go: copyValue", "xml/typeinfo.go: fieldInfo.value", "mpd/mpd.go: MPD"]}
{"id": "C70", "title": "The timeline of a manifest is that of its document, and survives writing", "statement": "After MPDFromBytes, the start, duration and type that GetStart, GetDuration and GetType give for the i-th period are those that the attributes type, mediaPresentationDuration, minimumUpdatePeriod, start and duration of the document define by the rules of ISO/IEC 23009-1 5.3.2 as implemented (C10, C11, C12), there are as many periods as Period elements, and every duration attribute that counts is one that ParseDuration accepts. A manifest written with Write and read again has the same period types, durations rounded to milliseconds as C06 says, and exactly the same timeline when all durations are whole seconds.", "quantifier": "for all documents that MPDFromBytes accepts, all allocations, all periods; for all manifests meeting the conditions of the round trip, in particular all built from the constructors, all indentations, with and without header", "why_tests_cant": "combines decoder, binding by tags, duration text, parent pointers and the period arithmetic over all documents", "anchors": ["mpd/io.go: MPDFromBytes", "mpd/mpd.go: MPD, Period, setParents", "mpd/period.go: GetStart, GetDuration, GetType", "mpd/duration.go: ParseDuration, Duration.String", "xml/read.go: unmarshal, unmarshalAttr"]}
{"id": "C71", "title": "Exactly which date-time texts are understood", "statement": "DateTime.ConvertToSeconds accepts a text exactly if it is a calendar-valid date-time YYYY-MM-DDThh:mm:ss with an optional fraction and a zone Z or +-hh:mm; beyond ISO 8601 only a one-digit hour, a comma before the fraction and zones up to 24:60 are accepted. The result is the one instant the text names, cropped to nanoseconds; all other texts give an error.", "quantifier": "for all byte strings", "why_tests_cant": "the set of accepted texts is infinite; calendar validity depends on the year", "anchors": ["mpd/io.go: ConvertToSeconds", "mpd/period.go: AbsoluteStart"]}
{"id": "C72", "title": "Fields with paths a>b>c", "statement": "For struct tags with paths (a>b>c): getTypeInfo accepts fields of one depth exactly if no path begins with another one, and the table it makes never has such a pair. marshalStruct writes balanced tags, with the elements of each field at its path and nothing elsewhere; unmarshal gives each field exactly the elements at its path, in document order, whatever else is in the document. So what is written for the fields is read into the same fields.", "quantifier": "all lists of fields with paths, all values, all documents", "why_tests_cant": "The shared parents are opened and closed on the way from field to field by a stack; all lists of fields and all values go through it.", "anchors": ["xml/typeinfo.go: addFieldInfo", "xml/marshal.go: parentStack.trim, parentStack.push, marshalStruct", "xml/read.go: unmarshalPath"]}
{"id": "C73", "title": "Fields written as CDATA sections and as comments are read back", "statement": "What is written for a field with the tag ,cdata is well-formed in the content of an element and is read back as the text, even if the text contains ]]> any number of times, with line ends normalized. A field with the tag ,comment is refused exactly if it contains --; otherwise it is read back as that comment.", "quantifier": "all byte strings, whatever follows in the document", "why_tests_cant": "The text is cut at every ]]> into sections; all texts, with cuts next to brackets, multi-byte characters and line ends.", "anchors": ["xml/xml.go: emitCDATA", "xml/marshal.go: marshalStruct", "xml/xml.go: text, rawToken"]}
{"id": "C74", "title": "A method UnmarshalXML is kept inside its element", "statement": "A type with its own UnmarshalXML is given a decoder that ends at the end of its element. Whatever the method does with Token and with DecodeElement on other such values, as long as it calls DecodeElement only before its element is finished and before an error, and fails if DecodeElement fails: the decoder does not panic, the method reads nothing behind its element, and if it is taken to have succeeded, either exactly the element has been read and namespaces and stack are as before it, or the decoder has met an error that every later Token returns. A method that just skips succeeds on every well-formed element.", "quantifier": "all methods (programs that call Token and DecodeElement and decide by what they got), all token sequences, all decoder states", "why_tests_cant": "The method is foreign code: any program; the decoder protects itself by a mark inserted below the start of the element on a stack shared with namespaces and nested calls.", "anchors": ["xml/read.go: unmarshalInterface, DecodeElement, Skip", "xml/xml.go: pushEOF, popEOF, Token, popElement"]}
{"id": "C75", "title": "Without Strict the tokens are still properly nested", "statement": "With Strict = false, and with any AutoClose list, every end element that Token returns has the local name of the innermost open element, and what Token returns is what is in the input, in the same order, with only end elements added, at most one for every start tag. On input without namespaces the added ends are exactly these: an end tag closes the innermost open element of its name and everything in it, any other token closes the innermost elements as long as they are in AutoClose, an end tag whose name is not open closes everything and is an error. What a strict decoder accepts is returned unchanged.", "quantifier": "all sequences of raw tokens with empty-element tags, all AutoClose lists, all numbers of calls", "why_tests_cant": "Invented ends are spread over several calls and three pieces of pending state (nextToken, needClose, toClose); all malformed inputs.", "anchors": ["xml/xml.go: Token, popElement, autoClose, rawToken"]}
{"id": "C76", "title": "A method MarshalXML is kept inside its element", "statement": "A type with its own MarshalXML writes its element with EncodeToken and EncodeElement on the encoder it is given. Whatever the method does: it cannot close an element it has not opened, and the elements open before it are open and unchanged after it. If the value counts as written, everything opened has been closed with the same name, the stack is as before, and the bytes are exactly those of the accepted tokens written one after the other, as if there were no methods; such a document is read back as these tokens. A method that ignores the failure of a nested EncodeElement with a MarshalXML fails itself.", "quantifier": "all methods (programs that call EncodeToken and EncodeElement, nested to any depth, and decide by what they got), all states of the encoder", "why_tests_cant": "The method is foreign code: any program. The encoder protects itself by a mark on the stack that is also searched for namespaces and prefixes.", "anchors": ["xml/marshal.go: marshalInterface, marshalTextInterface, EncodeToken, EncodeElement, writeStart, writeEnd, getPrefix, createPrefix"]}
{"id": "C77", "title": "A second decoder changes nothing", "statement": "NewTokenDecoder is there to put a filter between a decoder and its user: the tokens of one decoder are handed to a second one. Handed on unchanged, they come out of the second decoder as they went in, with the same final error, although the second decoder translates names and matches tags once more; an error that comes together with a token does not stop the token. If the filter does change the tokens, what comes out is still nested, and at io.EOF everything is closed and nothing is missing.", "quantifier": "all documents, well formed or not; all token readers", "why_tests_cant": "The second decoder sees name spaces where the first saw prefixes, and any name space may be spelled like a prefix declared somewhere; all nestings of declarations.", "anchors": ["xml/xml.go: NewTokenDecoder, TokenReader, Token, rawToken, translate, pushNs, popElement"]}
{"id": "C78", "title": "Text methods get the text of their element", "statement": "A type with MarshalText and UnmarshalText can be used as an element. UnmarshalText is called with the text of the element, without that of its children and comments, exactly when the element ends; reading goes on behind the end of the element. What MarshalText returns is what UnmarshalText is given when the document is read, if XML allows its characters.", "quantifier": "all contents of elements, nested to any depth; all texts", "why_tests_cant": "The text may be interrupted any number of times, by children with text of their own; reading must stop at exactly the right end tag.", "anchors": ["xml/read.go: unmarshalTextInterface", "xml/marshal.go: marshalTextInterface", "xml/xml.go: EscapeText"]}
{"id": "C79", "title": "What a decoder that is not strict makes of its input", "statement": "With Strict = false and an Entity map, for input such as HTML: a document that a strict decoder accepts is read as the same tokens (if the elements named in AutoClose are empty). A reference to a standard name, to a name of the Entity map or to a character by its number is replaced by what it means, in text and in quoted values; any other reference stays as it is, and is an error in strict mode. A value without quotes ends at the first byte that cannot be in one. An attribute without a value has its name as value and ends with its name. Whatever the bytes, end elements match the innermost open element.", "quantifier": "all byte sequences, all Entity maps and AutoClose lists, all texts made of ordinary bytes and references of any kind", "why_tests_cant": "All malformed inputs; the package's tests for attributes without a value stop at the first token of an input that ends there, where the mistake does not show.", "anchors": ["xml/xml.go: Decoder.Strict, Decoder.Entity, text, attrval, rawToken, Token"]}
{"id": "C80", "title": "Exactly which texts are truth values", "statement": "In a boolean field, the four words of XML Schema are understood with any white space around them; exactly which other texts are accepted is known; what is written is a word of XML Schema with the same meaning.", "quantifier": "all texts", "why_tests_cant": "All texts, with all the white space of Unicode.", "anchors": ["xml/read.go: copyValue, unmarshalAttr", "xml/marshal.go: marshalSimple"]}
{"id": "C81", "title": "A date-time read as seconds and written again", "statement": "ConvertToSeconds and ConvertToDateTime are the two directions between a date-time and seconds as a floating-point number. A date-time with milliseconds that goes through both comes back as it was. Failing that: how far off can it be, in which direction, and does the error grow when this is repeated.", "quantifier": "all date-times of the years 1677 to 2262, all numbers of repetitions", "why_tests_cant": "Whether a millisecond survives depends on the last bits of the instant; the tests of the package have a few instants.", "anchors": ["mpd/io.go: ConvertToDateTime, DateTime.ConvertToSeconds, ConvertToDateTimeMS"]}
{"id": "C82", "title": "When what was written can be read", "statement": "Whatever a manifest holds, it can be written; and whoever reads what was written gets a manifest. The one thing that can stand in the way is a duration that is negative, be it set by a program, or read from a text that is too large. In particular a manifest that was read, and written, can be read again exactly if none of its durations is negative.", "quantifier": "all manifests with any durations, numbers, texts and lists; all documents that are read; all indentations; with and without header", "why_tests_cant": "All fields of all elements at once; a negative duration can come from a document, by overflow, and then only the next reader notices.", "anchors": ["mpd/duration.go: Duration.String, ParseDuration, MarshalXMLAttr, UnmarshalXMLAttr", "mpd/io.go: MPD.Write, MPDFromBytes", "xml/marshal.go: marshalValue, marshalAttr", "xml/read.go: unmarshal, unmarshalAttr"]}
{"id": "C83", "title": "The text of a manifest is made of the texts of its periods", "statement": "Period.WriteToString gives the text that the period has in the manifest: the text of a manifest without indentation is the text of the manifest without periods, with the texts of the periods, each written on its own, put in at one place in their order; with indentation, each line of a period is one level further in. So a server can write the periods of a manifest once and put them together. A period that is written on its own is read back as the same.", "quantifier": "all manifests, all numbers of periods, all periods; for reading back, all indentations", "why_tests_cant": "What the printer writes for an element depends on the prefixes that the elements around it have declared, and on a counter for made-up prefixes; all periods in all manifests.", "anchors": ["mpd/io.go: WriteXML, Period.Write, Period.WriteToString, MPD.Write", "xml/marshal.go: marshalValue, writeStart, createPrefix, writeEnd"]}
{"id": "C84", "title": "Both forms of carrying SCTE-35 survive reading and writing", "statement": "SCTE-35 is carried in an Event as a Signal or directly as a SpliceInfoSection, in the current or the older namespace, declared as default namespace or with a prefix such as scte35, on any of the elements. A manifest with any of these that is read and written is read back as the same, and each SCTE-35 element keeps its name and its namespace, so that it does not fall into the namespace of DASH.", "quantifier": "all documents with SCTE-35 elements in one namespace, however nested and declared, with any attributes without a prefix; all indentations; with and without header", "why_tests_cant": "The tests have some documents of each form; how a namespace is written depends on all the declarations around the element, which are themselves captured as attributes.", "anchors": ["mpd/scte35.go: SignalType, SpliceInfoSectionType, XMLName, AnyAttrs, SCTE35Namespace, SCTE35Namespace2016", "xml/marshal.go: marshalValue, writeStart, createPrefix", "xml/read.go: unmarshal"]}
{"id": "C85", "title": "Elements can be written on their own", "statement": "WriteXML writes any element of a manifest on its own: an adaptation set, a representation, a descriptor, an SCTE-35 section. The document can be read with xml.Unmarshal into the same type and gives the same value, with any indentation. The element has the name that it has in the manifest, so its text can be put there.", "quantifier": "all struct types in the type of the manifest; all values; all indentations; with and without header", "why_tests_cant": "WriteXML takes any value; the tests write manifests and periods. The name of an element depends on the type, on its XMLName and on the field that it is in.", "anchors": ["mpd/io.go: WriteXML", "xml/marshal.go: marshalValue", "xml/read.go: unmarshal"]}
{"id": "C86", "title": "DefaultSpace reads a document as if it were inside an element with that default namespace", "statement": "A decoder with DefaultSpace u gives for every input the tokens that it would give if the declaration xmlns=u were in force around the input: names of elements without a prefix are in u until a declaration of the document says otherwise, attributes and prefixed names are as before, and xmlns=\"\" ends it. So the tokens of a document are those between the tags of the same document put inside an element <w xmlns=u>. The empty DefaultSpace changes nothing.", "quantifier": "all inputs, well formed or not, all values of DefaultSpace, all numbers of tokens; for the wrapped document all documents that are read to the end", "why_tests_cant": "The comment at DefaultSpace promises this for the entire stream; the option acts in the lookup of names at two places, for start tags and end tags, and must agree with the declarations of every document; the tests have one document.", "anchors": ["xml/xml.go: Decoder.DefaultSpace, Token, translate, popElement"]}
{"id": "C87", "title": "Documents in other encodings are read through CharsetReader as if they were in UTF-8", "statement": "A document whose XML declaration names an encoding other than UTF-8 is read by a decoder with a CharsetReader like the same document in UTF-8: the function is given the name of the encoding and all of the input after the declaration, the tokens and the unmarshalled value are those of its result, and its error is reported. For documents that a decoder without the option accepts, it changes nothing. Without the option such a document is refused.", "quantifier": "all functions CharsetReader, all documents and encodings, all well-formed declarations, all types", "why_tests_cant": "The reader is exchanged in the middle of reading, behind the buffer of the decoder; the test has one document and a function that returns a fixed text.", "anchors": ["xml/xml.go: Decoder.CharsetReader, rawToken, procInst, switchToReader"]}
{"id": "C88", "title": "EncodeElement writes a value with the given name and attributes", "statement": "EncodeElement(v, start) writes v as an element with the name of start, whatever the type or XMLName of v, and with the attributes of start in front of those of v. With the name that an element has in the manifest, it writes the element as it is there, so that an adaptation set written on its own is called AdaptationSet; what is written is read back as the same value. A start element without a name is an error.", "quantifier": "all types and values, all start elements; for reading back all struct types in the type of the manifest, all names, all indentations", "why_tests_cant": "The name has three sources in order of precedence, and the list of attributes is one that is sized in advance for the fields of the type; the tests use it for a string only.", "anchors": ["xml/marshal.go: EncodeElement, marshalValue", "xml/typeinfo.go: nAttrs, getTypeInfo"]}
{"id": "C89", "title": "A manifest that was read and then changed survives writing and reading", "statement": "A program reads a manifest, changes parts of it (sets attributes, replaces or removes elements, appends periods, adaptation sets or representations, reorders lists, at any depth) and writes it. The writing succeeds, and what is read from the result is the changed manifest: with the changes, and with everything else that was read, including SCTE-35 elements and attributes that the library does not know.", "quantifier": "all documents that are read, all finite sequences of such changes at any depth, all new values that a program builds, all indentations, with and without header", "why_tests_cant": "What the library keeps of a document (captured names, namespaces and declarations) must agree with what a program puts beside it and inside it; tests change one field of one manifest.", "anchors": ["mpd/io.go: ReadFromString, MPD.Write, WriteXML", "mpd/parents.go: AppendPeriod, AppendAdaptationSet, AppendRepresentation", "xml/marshal.go: marshalValue", "xml/read.go: unmarshal"]}
{"id": "C90", "title": "Reading and writing again changes nothing", "statement": "A manifest that was written by the library and is read and written again, with the same indentation, has the same bytes. So a manifest that passes through any number of programs that read and write it is changed by the first one only.", "quantifier": "all manifests read from any document or built by a program, all indentations, with and without header, all numbers of rounds", "why_tests_cant": "A test compares one round for some files; a change that is repeated in each round (a declaration or white space that is added once more) needs a proof that writing is a fixed point of the round.", "anchors": ["mpd/io.go: MPDFromBytes, MPD.Write, WriteXML", "xml/marshal.go: marshalValue", "xml/read.go: unmarshal", "mpd/scte214.go: SCTE214ContentIdentifierType", "mpd/mpd.go: EventType"]}
{"id": "C91", "title": "A token is valid until the next one, a copy for ever", "statement": "The bytes of a token are right when Token returns. Copies made with CopyToken keep their bytes whatever the decoder does afterwards, so a program that collects copies has exactly the texts of the document. A decoder made with NewTokenDecoder leaves the tokens of its reader as they are, so that the reader can give them again.", "quantifier": "all sequences of changes of the buffer by all numbers of calls, all ways in which the buffer grows, all lists of tokens of a reader", "why_tests_cant": "Whether a kept slice is overwritten depends on the sizes of all later tokens and on how the buffer grows; a test with short texts sees one of the cases.", "anchors": ["xml/xml.go: CopyToken, StartElement.Copy, CharData.Copy, Decoder.Token, NewTokenDecoder, Decoder.translate, Decoder.text, Decoder.rawToken"]}
{"id": "C92", "title": "Adding to one manifest does not change another", "statement": "A program has several manifests, some of them clones or copies of others, and adds periods, adaptation sets, representations and sub-representations to them in any order. Each list has at the end what it had and what was added to it, in this order.", "quantifier": "all programs with any number of lists, all interleavings of any number of additions, all ways in which Go lets slices grow", "why_tests_cant": "Whether append writes into an array that another manifest uses depends on the capacities left by all additions before; a test sees one growth of one list.", "anchors": ["mpd/parents.go: AppendPeriod, AppendAdaptationSet, AppendRepresentation, AppendSubRepresentation", "mpd/mpd.go: Clone, AdaptationSetType.Clone", "mpd/period.go: Period.Clone"]}
{"id": "C93", "title": "Raw content of elements is kept, and each element has its own", "statement": "A field of type []byte with the tag innerxml has, after reading, the raw content of its element, also when elements with such fields are inside each other and whatever is read after them. The fields of different elements are independent: a program that appends to one of them does not change another.", "quantifier": "all runs of the decoder: any input, any nesting, any number of fields, all ways in which the buffer grows", "why_tests_cant": "The fields are slices of one buffer that goes on growing while they exist; whether its array is replaced, and so whether fields share memory, depends on the sizes of all that is read.", "anchors": ["xml/read.go: Decoder.unmarshal (saveXML, saveXMLIndex, saveXMLData)", "xml/xml.go: Decoder.getc, Decoder.savedOffset"]}
{"id": "C94", "title": "Reading into a value in use changes what the document mentions and nothing else", "statement": "Unmarshal into a value that already has content (for instance a manifest that was read before) fails exactly if it fails for a new value. If it succeeds, attributes and elements of the document replace the values of their fields, elements of a list are added after those that were there, elements for a pointer that is set are read into what it points to in the same way, and fields for which there is nothing in the document keep their values.", "quantifier": "all documents in which no element for a single field is repeated, all old values of the manifest types, at any depth", "why_tests_cant": "The result depends on the old value and on the document in every field at every depth; tests read into new values.", "anchors": ["xml/read.go: Unmarshal, Decoder.Decode, Decoder.unmarshal, unmarshalAttr, unmarshalPath", "xml/typeinfo.go: fieldInfo.value", "mpd/mpd.go: MPD"]}
{"id": "C95", "title": "Several documents in one input are read one by one", "statement": "When documents are put one behind the other in one input and read with one Decoder by calling Decode once for each, every call gives what reading its document on its own gives: the same value or the same error, and nothing of an earlier document (open elements, name space prefixes, an element closed in its own tag) has an effect on a later one. If no element follows the last document, the next call returns the error at the end of the input.", "quantifier": "all lists of documents that end with their root element, all types (a different one for each call), everything that can follow behind them; up to the first call that returns an error", "why_tests_cant": "The result of a call depends on the state the decoder was left in by all documents before it.", "anchors": ["xml/read.go: Decoder.Decode, Decoder.DecodeElement, Decoder.unmarshal", "xml/xml.go: Decoder.Token, Decoder.popElement, Decoder.pushElement, Decoder.translate"]}
{"id": "C96", "title": "Putting a period into another manifest does not change the first one", "statement": "When a period of one manifest is also appended to another manifest (to make a manifest from parts of others), what the first manifest says about its periods stays the same: index, type, start and duration of each. If a clone of the period is appended, this holds for all periods; after SetParents of the first manifest it holds again.", "quantifier": "all states of the program (any number of manifests and periods, in any arrangement), all periods of the first manifest", "why_tests_cant": "The start of a period is computed through the parent pointers of all periods before it, each of which may point to a different manifest; a test sees one arrangement.", "anchors": ["mpd/parents.go: AppendPeriod, MPD.SetParents", "mpd/period.go: GetIndex, GetType, GetStart, GetDuration, Clone"]}
{"id": "C97", "title": "Putting a representation into another adaptation set does not change the first one", "statement": "When a representation of one adaptation set is also appended to another one (for instance a second set with a different order or for trick modes), the MIME type, codecs, content protections, segment template and the addresses of initialization and media segments that the accessors return for the representations of the first set stay the same. They also stay the same when adaptation sets and periods are put into further periods and manifests, the representations of a clone of an adaptation set have the same ones, and after SetParents of the first set they are again as they were.", "quantifier": "all states of the program (any number of adaptation sets and representations, in any arrangement), all values of the fields", "why_tests_cant": "What is inherited depends on the last of all calls that set the parent pointer, and on both adaptation sets; a test sees one arrangement with one set of values.", "anchors": ["mpd/parents.go: AppendRepresentation, AppendAdaptationSet, AppendPeriod, AdaptationSetType.SetParents", "mpd/mpd.go: GetSegmentTemplate, GetInit, GetMedia, GetMimeType, GetCodecs, GetContentProtections, AdaptationSetType.Clone"]}
