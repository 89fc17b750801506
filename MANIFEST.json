{
 "claims": [
  {
   "property": "C01",
   "status": "partial",
   "theorems": [
    "Verif.Duration.C01_string_denotes_partial",
    "Verif.Duration.C01_refuted",
    "Verif.Duration.C01_exceptional_range",
    "Verif.Duration.C01_iff"
   ],
   "note": "False of the code: magnitudes in [0.9995 s, 1 s) are rendered as PT0S (C01_refuted). Proved for all other int64 durations."
  },
  {
   "property": "C02",
   "status": "proved",
   "theorems": [
    "Verif.Duration.C02_string_total"
   ],
   "note": "At most 21 of the 32 bytes, for every int64."
  },
  {
   "property": "C03",
   "status": "proved",
   "theorems": [
    "Verif.Duration.C03_parse_value"
   ],
   "note": "Under the stated range (seconds field at most 2^51 ns, sum below 2^63-1 ns); float64 rounding is modelled exactly."
  },
  {
   "property": "C04",
   "status": "proved",
   "theorems": [
    "Verif.Duration.C04_accepts_iff",
    "Verif.Duration.C04_documented_accepted",
    "Verif.Duration.C04_alphabet",
    "Verif.Duration.C04_no_fuel"
   ],
   "note": "Acceptance is exactly the grammar DurationSpec.Fields.Valid."
  },
  {
   "property": "C05",
   "status": "partial",
   "theorems": [
    "Verif.Duration.C05_refuted",
    "Verif.Duration.C05_nonneg_partial",
    "Verif.Duration.C05_sign_iff"
   ],
   "note": "False of the code: P106752D is accepted with a negative result. Proved when the denoted time fits. C05_sign_iff: with whole seconds (at most 9007199 in the seconds field) the result is the denoted time modulo 2^64 ns, so negative exactly in the upper half."
  },
  {
   "property": "C06",
   "status": "partial",
   "theorems": [
    "Verif.Duration.C06_cycle",
    "Verif.Duration.C06_settles",
    "Verif.Duration.C06_roundtrip_partial",
    "Verif.Duration.C06_cycles_partial",
    "Verif.Duration.C06_refuted",
    "Verif.Duration.C06_max_wraps"
   ],
   "note": "False below 0.5 ms (15 ns reads back as 14 ns) and at the top of the range; proved from 0.5 ms up except [0.9995 s, 1 s). C06_cycle: for every int64 duration, what it becomes; C06_settles: repeated cycles come to rest."
  },
  {
   "property": "C07",
   "status": "proved",
   "theorems": [
    "Verif.Period.C07_start_rule"
   ],
   "note": "Requires parent links set and each period object listed once (otherwise C08 still gives termination)."
  },
  {
   "property": "C08",
   "status": "proved",
   "theorems": [
    "Verif.Period.C08_terminates",
    "Verif.Period.C08_links_needed"
   ],
   "note": "Also with repeated period objects; C08_links_needed shows that with crossed parent links the recursion never ends."
  },
  {
   "property": "C09",
   "status": "proved",
   "theorems": [
    "Verif.Period.C09_tiling"
   ],
   "note": "int64 sums as in Go."
  },
  {
   "property": "C10",
   "status": "partial",
   "theorems": [
    "Verif.Period.C10_duration_rule",
    "Verif.Period.C10_single_refuted",
    "Verif.Period.C10_single_partial",
    "Verif.Period.C10_single_iff"
   ],
   "note": "Derivation rule proved in full; the documented single-period static case is false when the period has no start attribute (C10_single_refuted). It holds exactly when start is 0 (C10_single_iff)."
  },
  {
   "property": "C11",
   "status": "proved",
   "theorems": [
    "Verif.Period.C11_classification"
   ],
   "note": ""
  },
  {
   "property": "C12",
   "status": "proved",
   "theorems": [
    "Verif.Period.C12_getIndex"
   ],
   "note": ""
  },
  {
   "property": "C13",
   "status": "proved",
   "theorems": [
    "Verif.Period.C13_setParents",
    "Verif.Period.C13_appends"
   ],
   "note": ""
  },
  {
   "property": "C14",
   "status": "proved",
   "theorems": [
    "Verif.Period.C14_clone_mpd",
    "Verif.Period.C14_clone_period",
    "Verif.Period.C14_clone_aset",
    "Verif.Period.offsetCopy_deepCopy"
   ],
   "note": "Relative to the DeepCopy contract assumed of the external go-deepcopy library; the contract is shown satisfiable."
  },
  {
   "property": "C15",
   "status": "proved",
   "theorems": [
    "Verif.DateTime.C15_errors",
    "Verif.DateTime.C15_close",
    "Verif.DateTime.C15_exact"
   ],
   "note": "Instants within the int64 nanosecond range."
  },
  {
   "property": "C16",
   "status": "proved",
   "theorems": [
    "Verif.Misc.C16_addProfile",
    "Verif.Misc.C16_sequence",
    "Verif.Misc.profiles_exists",
    "Verif.Misc.profiles_unique"
   ],
   "note": "For non-empty comma-free profiles and arbitrary existing lists."
  },
  {
   "property": "C17",
   "status": "partial",
   "theorems": [
    "Verif.Misc.C17_expand_partial",
    "Verif.Misc.C17_refuted_id",
    "Verif.Misc.C17_refuted_literal",
    "Verif.Misc.C17_no_dollar",
    "Verif.Misc.C17_replace",
    "Verif.Misc.C17_exact"
   ],
   "note": "False of the code: text from the id is substituted again, and literal text between two identifiers can be taken for an identifier. Proved when neither occurs. Without conditions: each substitution replaces exactly the leftmost occurrences that do not overlap (C17_replace), and the function is the two substitutions one after the other (C17_exact)."
  },
  {
   "property": "C18",
   "status": "proved",
   "theorems": [
    "Verif.Misc.C18_inherit",
    "Verif.Misc.C18_getInit"
   ],
   "note": "Also states exactly when a missing parent makes the accessors panic."
  },
  {
   "property": "C19",
   "status": "partial",
   "theorems": [
    "Verif.Misc.C19_ranges_partial",
    "Verif.Misc.C19_refuted",
    "Verif.Misc.C19_iff"
   ],
   "note": "False for a zero initialization size and wrapping sums. C19_iff: both ranges are right exactly for a positive initialization size and a sum of at most 2^32."
  },
  {
   "property": "C20",
   "status": "partial",
   "theorems": [
    "Verif.Misc.C20_get_set",
    "Verif.Misc.C20_default_refuted",
    "Verif.Misc.C20_set_always"
   ],
   "note": "Getter/setter agree; the default value 1 is not omitted although the code intends it."
  },
  {
   "property": "C21",
   "status": "partial",
   "theorems": [
    "Verif.DateTime.C21_read",
    "Verif.DateTime.C21_text_S",
    "Verif.DateTime.C21_text_MS",
    "Verif.DateTime.C21_text_float",
    "Verif.DateTime.C21_read_close",
    "Verif.DateTime.C21_seconds_iff",
    "Verif.DateTime.C21_seconds_partial",
    "Verif.DateTime.C21_refuted",
    "Verif.DateTime.C21_far_refuted",
    "Verif.DateTime.C21_outside"
   ],
   "note": "Exact round trip is false for odd seconds between 4611686019 and 2^33; characterised exactly. Beyond 2262 the result is meaningless; outside the years 0-9999 it is an error (C21_outside)."
  },
  {
   "property": "C22",
   "status": "partial",
   "theorems": [
    "Verif.FloatText.C22_inf",
    "Verif.FloatText.C22_finite_partial",
    "Verif.FloatText.C22_injective",
    "Verif.FloatText.C22_others",
    "Verif.FloatText.C22_refuted"
   ],
   "note": "Finite values and +Inf as stated, for any strconv that keeps its documented contract (shortest digits that read back; correctly rounded parsing), which goFloat_ok shows satisfiable; -Inf and NaN are read back, but not written in decimal notation (C22_refuted)."
  },
  {
   "property": "C23",
   "status": "proved",
   "theorems": [
    "Verif.Xml.C23_content",
    "Verif.Xml.C23_string",
    "Verif.Xml.C23_attr",
    "Verif.Xml.C23_content_any",
    "Verif.Xml.C23_string_any",
    "Verif.Xml.C23_attr_any",
    "Verif.Xml.C23_injective",
    "Verif.Xml.C23_lossy"
   ],
   "note": "For every text of XML characters, exactly; for arbitrary bytes, up to U+FFFD replacing what XML cannot carry (C23_lossy shows that this is needed)."
  },
  {
   "property": "C24",
   "status": "proved",
   "theorems": [
    "Verif.Xml.C24_string",
    "Verif.Xml.C24_content",
    "Verif.Xml.C24_no_markup",
    "Verif.Xml.C23_attr_any"
   ],
   "note": "All byte strings."
  },
  {
   "property": "C25",
   "status": "partial",
   "theorems": [
    "Verif.Xml.C25_ends_iff",
    "Verif.Xml.C25_bound",
    "Verif.Xml.C25_refuted"
   ],
   "note": "False of the code: a raw > in character data makes the decoder return empty text forever. Reading ends exactly when that state is never reached, and then within 2*length+1 tokens."
  },
  {
   "property": "C26",
   "status": "proved",
   "theorems": [
    "Verif.Xml.C26_nested",
    "Verif.Xml.C26_eof_closed"
   ],
   "note": ""
  },
  {
   "property": "C27",
   "status": "proved",
   "theorems": [
    "Verif.Xml.C27_scoping"
   ],
   "note": ""
  },
  {
   "property": "C28",
   "status": "proved",
   "theorems": [
    "Verif.Xml.C28_wellformed"
   ],
   "note": "For every tree of elements with legal names (any prefixes, namespaces, attributes, text, depth) and any white space indentation: if printing succeeds, the decoder accepts the output to its end, tags are balanced, one root."
  },
  {
   "property": "C29",
   "status": "partial",
   "theorems": [
    "Verif.Xml.C29_names_partial",
    "Verif.Xml.C29_refuted",
    "Verif.Xml.C29_refuted_prefix",
    "Verif.Xml.C29_refuted_capture"
   ],
   "note": "False in general (three ways, with witnesses). Proved for all trees in which prefixes and namespaces correspond one to one on each path and default namespaces are not shadowed; then the decoder reads exactly the tree's expanded names, attributes and text."
  },
  {
   "property": "C30",
   "status": "partial",
   "theorems": [
    "Verif.Bind.C30_roundtrip_partial",
    "Verif.Bind.C30_values_partial",
    "Verif.Bind.C30_tidy_partial",
    "Verif.Bind.C30_exact_partial",
    "Verif.Bind.C30_lost"
   ],
   "note": "Every canonical manifest with resolvable names is read back equal, with any indentation, for any strconv that keeps its documented contract (GoFloats); where text is together with elements, indentation adds white space around it and nothing else (Loose); durations come back rounded to milliseconds or one nanosecond less, whole seconds exactly (SameDur). Any text and any lists: what is read is the value with forbidden characters replaced and nil members dropped (C30_tidy_partial), so that it is the same value exactly if it has none (C30_exact_partial), and values that differ in those only have the same document (C30_lost). All numbers come back, infinities and NaN among them. Missing: values outside Rough and NsOk (negative durations, which cannot be read back, C82; names that are not kept; see DESIGN.md); a duration in the last 275808 ns of the range comes back as one fixed negative duration (SameDur)."
  },
  {
   "property": "C31",
   "status": "partial",
   "theorems": [
    "Verif.Bind.C31_unknown_ignored",
    "Verif.Bind.C31_foreign_refuted"
   ],
   "note": "Elements, attributes, comments and processing instructions without a field are ignored at every depth. False for attributes of a foreign namespace whose local name is that of a field (C31_foreign_refuted): they are read into the field."
  },
  {
   "property": "C32",
   "status": "proved",
   "theorems": [
    "Verif.Bind.C32_attribute_order"
   ],
   "note": "Every permutation of attributes that do not go to the same field, at any depth of any document."
  },
  {
   "property": "C33",
   "status": "proved",
   "theorems": [
    "Verif.Bind.C33_interleaving",
    "Verif.Bind.C33_list_order"
   ],
   "note": "Every exchange of neighbouring elements that go to different fields leaves the result unchanged; the elements of a list keep document order."
  },
  {
   "property": "C34",
   "status": "proved",
   "theorems": [
    "Verif.WriteIO.C34_write",
    "Verif.WriteIO.C34_contract_needed",
    "Verif.WriteIO.produced_ok",
    "Verif.WriteIO.produced_error"
   ],
   "note": "For destinations that keep the io.Writer contract (C34_contract_needed shows it is needed). The walk of the value is modelled call by call, with bufio.Writer."
  },
  {
   "property": "C35",
   "status": "proved",
   "theorems": [
    "Verif.WriteIO.C35_write",
    "Verif.WriteIO.C35_concurrent",
    "Verif.WriteIO.ready_finishes",
    "Verif.WriteIO.pooled_release"
   ],
   "note": "All interleavings of any number of concurrent calls, with a pool that gives any of its encoders or a new one and may forget encoders."
  },
  {
   "property": "C36",
   "status": "proved",
   "theorems": [
    "Verif.WriteIO.C36_string"
   ],
   "note": ""
  },
  {
   "property": "C37",
   "status": "proved",
   "theorems": [
    "Verif.Xml.C37_transparent",
    "Verif.Xml.C37_shared",
    "Verif.Xml.C37_name",
    "Verif.Xml.internBytes_full"
   ],
   "note": "Any sequence of names; also that a repeated name is the same string object while the table has room."
  },
  {
   "property": "C38",
   "status": "partial",
   "theorems": [
    "Verif.Bind.C38_indent_partial",
    "Verif.Bind.C38_same_partial",
    "Verif.Bind.C38_values_partial",
    "Verif.Bind.C38_refuted"
   ],
   "note": "False for elements with both text and child elements (SCTE-35 events): the indentation is read as text (C38_refuted). Proved for all canonical manifests: indentation adds white space around such text and changes nothing else (C38_indent_partial); without such elements it changes nothing at all (C38_same_partial)."
  },
  {
   "property": "C39",
   "status": "partial",
   "theorems": [
    "Verif.Bind.C39_refuted",
    "Verif.Bind.C39_marshal",
    "Verif.Bind.C39_write_iff",
    "Verif.Bind.C39_read_partial",
    "Verif.Bind.C39_common_partial"
   ],
   "note": "False of the code: a document without a required attribute of an embedded group is read, and writing the result panics. Every manifest that was read is written without error exactly when no embedded pointer in it is nil (C39_read_partial), in particular if it has no ReplacePresentation (C39_common_partial); for manifests built in other ways the same holds if explicitly set element names are acceptable (C39_write_iff)."
  },
  {
   "property": "C40",
   "status": "partial",
   "theorems": [
    "Verif.Bind.C40_fields_partial",
    "Verif.Bind.C40_refuted"
   ],
   "note": "False for the nine fields listed in `misnamed`; proved for all other fields of all types."
  },
  {
   "property": "C41",
   "status": "proved",
   "theorems": [
    "Verif.Bind.C41_read_int",
    "Verif.Bind.C41_read_uint",
    "Verif.Bind.C41_written",
    "Verif.Bind.C41_content",
    "Verif.Bind.C41_ptr"
   ],
   "note": "Attributes and element content, all bit sizes, with or without a pointer."
  },
  {
   "property": "C42",
   "status": "partial",
   "theorems": [
    "Verif.Bind.C42_captured",
    "Verif.Bind.C42_replayed",
    "Verif.Bind.C42_passthrough_partial"
   ],
   "note": "Names are captured from any document and written back for all values; the composed statement has the hypotheses of C30."
  },
  {
   "property": "C43",
   "status": "proved",
   "theorems": [
    "Verif.Misc.C43_spliceInfo",
    "Verif.Misc.C43_isSCTE35"
   ],
   "note": ""
  },
  {
   "property": "C44",
   "status": "proved",
   "theorems": [
    "Verif.TypeCache.C44_typeInfo",
    "Verif.TypeCache.C44_typeImpl",
    "Verif.TypeCache.call_returns",
    "Verif.TypeCache.sch_of_info"
   ],
   "note": "All interleavings of any number of goroutines with atomic sync.Map operations, including the nested calls for embedded structs."
  },
  {
   "property": "C45",
   "status": "proved",
   "theorems": [
    "Verif.Bind.C45_all_or_nothing",
    "Verif.Bind.C45_same",
    "Verif.Bind.C45_after_root",
    "Verif.Bind.C45_root",
    "Verif.Bind.numbered_good"
   ],
   "note": "Also that a document cut anywhere before the end of its root element is rejected. For every allocation of the decoded objects in separate memory."
  },
  {
   "property": "C46",
   "status": "partial",
   "theorems": [
    "Verif.Bind.C46_qualified_partial",
    "Verif.Bind.C46_refuted"
   ],
   "note": "False for xlink attributes of AdaptationSet and SegmentList whose tags have a prefix but no namespace; proved for all other fields."
  },
  {
   "property": "C47",
   "status": "proved",
   "theorems": [
    "Verif.Misc.C47_seconds_exact",
    "Verif.Misc.C47_wraps"
   ],
   "note": ""
  },
  {
   "property": "C48",
   "status": "partial",
   "theorems": [
    "Verif.Bind.C48_refuted",
    "Verif.Bind.C48_once_partial"
   ],
   "note": "False of the code: a ContentIdentifier whose namespace is declared on the element is read and written with the declaration twice, which XML parsers reject. Proved for every manifest that meets the conditions of C30 and OnceV: other attributes have distinct names, declarations come first and not in an element with a prefix, attribute lists have at most one entry."
  },
  {
   "property": "C49",
   "status": "partial",
   "theorems": [
    "Verif.Bind.C49_rewrite_partial",
    "Verif.Bind.C49_plain_partial"
   ],
   "note": "Proved for every document whose manifest has durations that are not negative (the only condition on values; it is necessary, C82), and names that keep their meaning (NsOk); the latter always holds without SCTE-35 elements and attributes unknown to the library (C49_plain_partial)."
  },
  {
   "property": "C50",
   "status": "partial",
   "theorems": [
    "Verif.Bind.C50_captured",
    "Verif.Bind.C50_read",
    "Verif.Bind.C50_passthrough_partial",
    "Verif.Bind.C50_rewrite_partial"
   ],
   "note": "Reading is proved for all documents; writing and reading back under the conditions of C30 and C49."
  },
  {
   "property": "C51",
   "status": "partial",
   "theorems": [
    "Verif.Bind.C51_refuted",
    "Verif.Bind.C51_meaning_partial",
    "Verif.Bind.scoped_selfContained"
   ],
   "note": "False in general: a prefix declared outside Ext is not written (C51_refuted). Proved for content that declares the prefixes and default namespaces it uses, under the conditions of C49."
  },
  {
   "property": "C52",
   "status": "proved",
   "theorems": [
    "Verif.Bind.C52_unique",
    "Verif.Bind.C52_complete",
    "Verif.Bind.C52_sound",
    "Verif.Bind.C52_names",
    "Verif.Bind.mpd_distinct"
   ],
   "note": "For every struct type for which getTypeInfo returns a table (it returns an error for two fields of the same name and depth). C52_names needs field names to be distinct within a struct, which Go demands; mpd_distinct: so it is in the library."
  },
  {
   "property": "C53",
   "status": "proved",
   "theorems": [
    "Verif.Xml.C53_layout",
    "Verif.Xml.C53_same",
    "Verif.Xml.C53_written",
    "Verif.Xml.C53_success"
   ],
   "note": "All trees of items (any prefix and indent), and whole documents."
  },
  {
   "property": "C54",
   "status": "partial",
   "theorems": [
    "Verif.Grammar.C54_wellformed_partial",
    "Verif.Grammar.C54_root",
    "Verif.Grammar.C54_refuted",
    "Verif.Grammar.C54_spaces_refuted",
    "Verif.Grammar.C54_subset_refuted",
    "Verif.Grammar.C54_defaults_refuted",
    "Verif.Grammar.C54_entities_refuted"
   ],
   "note": "False of the code: the decoder never gets past a literal > in text (C54_refuted), does not replace tabs and line ends in attribute values by spaces (C54_spaces_refuted), misreads processing instructions with quotes or angle brackets in the internal subset (C54_subset_refuted), and ignores attribute defaults and entities declared there (C54_defaults_refuted, C54_entities_refuted). Proved for all other well-formed documents; C54_root says that declarations are passed over whatever they are."
  },
  {
   "property": "C55",
   "status": "proved",
   "theorems": [
    "Verif.Grammar.C55_spelling",
    "Verif.Grammar.C55_spelling_exact"
   ],
   "note": "All struct types. For the documents of C54_wellformed_partial. Namespace declarations count as attributes here."
  },
  {
   "property": "C56",
   "status": "partial",
   "theorems": [
    "Verif.Grammar.C56_prefixes_partial",
    "Verif.Grammar.C56_manifests_partial",
    "Verif.Grammar.C56_refuted"
   ],
   "note": "False for prefixes named like an attribute: xmlns:id is read as the attribute id (C56_refuted). Proved for all other prefixes, for the documents of C54_wellformed_partial."
  },
  {
   "property": "C57",
   "status": "partial",
   "theorems": [
    "Verif.DurFloat.C57_accuracy",
    "Verif.DurFloat.C57_monotone",
    "Verif.DurFloat.C57_roundtrip_partial",
    "Verif.DurFloat.C57_refuted"
   ],
   "note": "Accuracy and order are proved up to 9e9 seconds. The way through Seconds and back is exact up to 2^51 + 1 microseconds (71 years) and fails at the next one (C57_refuted)."
  },
  {
   "property": "C58",
   "status": "proved",
   "theorems": [
    "Verif.Bind.C58_constructors",
    "Verif.Bind.C58_built",
    "Verif.Bind.C58_new"
   ],
   "note": "For any strconv that keeps its documented contract (GoFloats). C58_built: more generally, values built from new structs by assigning fields and appending to lists, with finite numbers and durations that have a faithful text (C06). C58_new: for which types a new value qualifies."
  },
  {
   "property": "C59",
   "status": "partial",
   "theorems": [
    "Verif.Period.C59_distinct",
    "Verif.Period.C59_unknown_iff",
    "Verif.Period.C59_refuted"
   ],
   "note": "Names are distinct, but PTRegularOrEarlyTerminated is called unknown, as PTBad is (C59_refuted); C59_unknown_iff says exactly for which periods."
  },
  {
   "property": "C60",
   "status": "proved",
   "theorems": [
    "Verif.Written.C60_written",
    "Verif.Written.new_zero"
   ],
   "note": "All byte strings (bytes that are not valid UTF-8 or not XML characters become U+FFFD in the text), all numbers, all int64 durations; without indentation (C53 says what indentation adds)."
  },
  {
   "property": "C61",
   "status": "partial",
   "theorems": [
    "Verif.Bind.C61_namespace_partial",
    "Verif.Bind.C61_constructors",
    "Verif.Bind.C61_new",
    "Verif.Bind.C61_refuted"
   ],
   "note": "False of the code: 15 of the 28 SCTE-35 types have no constructor, and one made with a struct literal (such as Program) is written with xmlns=\"\", so that it and the elements inside, even those made with constructors, are in no namespace (C61_refuted). Proved when each of these elements has a name in the SCTE-35 namespace; the constructors give it."
  },
  {
   "property": "C62",
   "status": "partial",
   "theorems": [
    "Verif.EncTok.C62_comment",
    "Verif.EncTok.C62_procInst",
    "Verif.EncTok.C62_directive",
    "Verif.EncTok.C62_refuted_comment",
    "Verif.EncTok.C62_refuted_procInst",
    "Verif.EncTok.C62_refuted_directive"
   ],
   "note": "False of the code: comments with -- inside, processing instructions whose data begins with a space, and some directives (empty, beginning with [ or -, with comments inside) are accepted but not returned as the same token. The first three theorems say exactly which tokens are accepted and which of them are returned."
  },
  {
   "property": "C63",
   "status": "proved",
   "theorems": [
    "Verif.EncTok.C63_stream",
    "Verif.EncTok.C63_exact",
    "Verif.EncTok.C63_matched"
   ],
   "note": "C63_stream: all lists of tokens whose names resolve as in C29, with comments, processing instructions and directives that are read back (C62). C63_exact: tokens without namespaces come back unchanged. C63_matched: for any tokens at all."
  },
  {
   "property": "C64",
   "status": "partial",
   "theorems": [
    "Verif.Machine.C64_positions",
    "Verif.Machine.C64_line",
    "Verif.Machine.C64_line_range",
    "Verif.Machine.C64_local",
    "Verif.Machine.C64_char_refuted"
   ],
   "note": "False of the code in one respect: the line given for an illegal character is the line where the text ends that has it (C64_char_refuted). The rest is proved."
  },
  {
   "property": "C65",
   "status": "proved",
   "theorems": [
    "Verif.Machine.C65_saved"
   ],
   "note": "For the byte-by-byte machine, which C64_positions relates to the functions of the other theorems."
  },
  {
   "property": "C66",
   "status": "proved",
   "theorems": [
    "Verif.Direct.C66_decode",
    "Verif.Direct.C66_local",
    "Verif.Direct.C66_same_error"
   ],
   "note": "For every fuel from an explicit bound on, linear in the length of the input; a document on which the decoder does not return (a raw > in text, C25) has no result with any fuel."
  },
  {
   "property": "C67",
   "status": "partial",
   "theorems": [
    "Verif.ReadErr.C67_failure",
    "Verif.ReadErr.C67_definite_partial",
    "Verif.ReadErr.C67_value",
    "Verif.ReadErr.C67_refuted"
   ],
   "note": "False of the code in one respect: when the reader fails in the middle of a character of text, the check of characters runs on what was read so far and its error replaces that of the reader (C67_refuted). Proved for everything else; values are never affected (C67_value)."
  },
  {
   "property": "C68",
   "status": "proved",
   "theorems": [
    "Verif.Steps.C68_token",
    "Verif.Steps.C68_linear",
    "Verif.Steps.C68_document"
   ],
   "note": "Counts the calls of Token, getc and ungetc, not the work between them (look-ups of names, copies of text). Documents on which Unmarshal does not return (C25) are excluded: they have no bound."
  },
  {
   "property": "C69",
   "status": "proved",
   "theorems": [
    "Verif.Bind.C69_document",
    "Verif.Bind.C69_manifest",
    "Verif.Bind.C69_read",
    "Verif.Bind.C69_counts",
    "Verif.Bind.C69_refuted"
   ],
   "note": "C69_refuted shows that the condition (no element for a single field repeated) is needed: repeated elements are merged or replaced. Numbers, durations and floating-point numbers in attributes and text are left to copySimple and readSimpleAttr (C03, C04, C22, C41)."
  },
  {
   "property": "C70",
   "status": "proved",
   "theorems": [
    "Verif.Bind.C70_document",
    "Verif.Bind.C70_stored",
    "Verif.Bind.C70_written",
    "Verif.Bind.C70_built"
   ],
   "note": "C70_written has the conditions of C30 (C70_built: none beyond new structs and whole seconds). For durations that are not whole seconds the start and duration attributes come back rounded as in C06, and the computed starts follow those rounded values. The contract of the allocation (Alloc.Timed: the objects carry the attributes of the value) stands for Go structs."
  },
  {
   "property": "C71",
   "status": "proved",
   "theorems": [
    "Verif.DateTime.C71_accepts",
    "Verif.DateTime.C71_fails",
    "Verif.DateTime.C71_unique",
    "Verif.DateTime.C71_refuted"
   ],
   "note": "About the model of time.Parse for the one layout RFC3339MS (trusted transcription of the standard library). C71_refuted: texts outside ISO 8601 are accepted."
  },
  {
   "property": "C72",
   "status": "partial",
   "theorems": [
    "Verif.Paths.C72_table",
    "Verif.Paths.C72_accepts",
    "Verif.Paths.C72_read",
    "Verif.Paths.C72_written",
    "Verif.Paths.C72_roundtrip",
    "Verif.Paths.C72_refuted"
   ],
   "note": "False of the code for tags with a namespace and a path: the parents are written without the namespace and only read in it (C72_refuted). Proved for fields without namespaces. No type of the manifest has such tags; the xml package offers them. About elements as trees; that tags in the text are read as trees is C28, C54."
  },
  {
   "property": "C73",
   "status": "partial",
   "theorems": [
    "Verif.Cdata.C73_cdata",
    "Verif.Cdata.C73_content",
    "Verif.Cdata.C73_document",
    "Verif.Cdata.C73_illegal",
    "Verif.Cdata.C73_comment",
    "Verif.Cdata.C73_refuted",
    "Verif.Cdata.C73_comment_refuted"
   ],
   "note": "False of the code in two respects: characters that XML does not allow are written as they are and make the document unreadable (C73_refuted; C73_illegal: always, C73_cdata: only then), and a comment that ends in - comes back with a space (C73_comment_refuted; C73_comment: nothing else changes). Line ends are normalized, as XML demands."
  },
  {
   "property": "C74",
   "status": "partial",
   "theorems": [
    "Verif.Sandbox.C74_contained",
    "Verif.Sandbox.C74_skip",
    "Verif.Sandbox.C74_same",
    "Verif.Sandbox.C74_refuted",
    "Verif.Sandbox.C74_careless_refuted",
    "Verif.Sandbox.C74_panic_refuted"
   ],
   "note": "Proved for methods that keep the two rules of the statement. Without them it is false of the code: a call of DecodeElement after the end of the element lets the method read its parent (C74_refuted) or panics (C74_panic_refuted); ignoring a failed DecodeElement leaves a mark, and an element that was not read counts as read (C74_careless_refuted). Methods that never return are not programs of the model."
  },
  {
   "property": "C75",
   "status": "partial",
   "theorems": [
    "Verif.Loose.C75_balanced",
    "Verif.Loose.C75_bound",
    "Verif.Loose.C75_document",
    "Verif.Loose.C75_strict",
    "Verif.Loose.C75_prefix",
    "Verif.Loose.C75_is_strict",
    "Verif.Loose.C75_refuted",
    "Verif.Loose.C75_declaration_refuted",
    "Verif.Loose.C75_case_refuted"
   ],
   "note": "Nesting of local names, order and number are proved for all input; for full names it is false of the code: an invented end element has the prefix in place of the namespace (C75_refuted), and after a missing end tag of an element with a namespace declaration the parent's end tag is refused (C75_declaration_refuted). C75_document is for input without namespaces; strings.EqualFold is any reflexive relation. Decoders made with NewTokenDecoder are not covered; how raw tokens are read in non-strict mode is C79."
  },
  {
   "property": "C76",
   "status": "proved",
   "theorems": [
    "Verif.Guard.C76_below",
    "Verif.Guard.C76_complete",
    "Verif.Guard.C76_iff",
    "Verif.Guard.C76_swallow",
    "Verif.Guard.C76_read",
    "Verif.Guard.C76_after_refuted"
   ],
   "note": "For all programs. C76_after_refuted records that after a failure the encoder cannot be used any more (the mark stays), which the statement does not claim. Close and Indent called by the method and failing writers are not covered."
  },
  {
   "property": "C77",
   "status": "partial",
   "theorems": [
    "Verif.Piped.C77_iff",
    "Verif.Piped.C77_ordinary_partial",
    "Verif.Piped.C77_error",
    "Verif.Piped.C77_nested",
    "Verif.Piped.C77_refuted"
   ],
   "note": "False of the code for documents that use one of the words xml and xmlns as a name space (C77_refuted); C77_iff says exactly when it holds. Only the results up to the first error are modelled; fields with innerxml, which need the bytes, are not covered."
  },
  {
   "property": "C78",
   "status": "proved",
   "theorems": [
    "Verif.TextMethods.C78_read",
    "Verif.TextMethods.C78_fails",
    "Verif.TextMethods.C78_roundtrip",
    "Verif.TextMethods.C78_refuted"
   ],
   "note": "C78_roundtrip is for elements and attributes without name spaces, as in C63. C78_refuted records that characters XML does not allow come back as U+FFFD, which the statement excludes. The methods themselves are foreign code: any text."
  },
  {
   "property": "C79",
   "status": "partial",
   "theorems": [
    "Verif.Lenient.C79_strict",
    "Verif.Lenient.C79_default",
    "Verif.Lenient.C79_references",
    "Verif.Lenient.C79_unknown",
    "Verif.Lenient.C79_unquoted",
    "Verif.Lenient.C79_cut",
    "Verif.Lenient.C79_nested",
    "Verif.Lenient.C79_bare_partial",
    "Verif.Lenient.C79_bare_refuted",
    "Verif.Lenient.C79_bare_tag_refuted",
    "Verif.Lenient.C79_bare_empty_refuted",
    "Verif.Lenient.C79_bare_next_refuted"
   ],
   "note": "False of the code for attributes without a value: the byte after the name is taken and not put back (xml.go 869-874), so <p nowrap></p> is an error, <input x/> is not closed, and the first letter of the next attribute is lost. Everything else is proved. A nil CharsetReader; the first error ends the run."
  },
  {
   "property": "C80",
   "status": "proved",
   "theorems": [
    "Verif.Bind.C80_read",
    "Verif.Bind.C80_schema",
    "Verif.Bind.C80_written",
    "Verif.Bind.C80_refuted"
   ],
   "note": "C80_refuted records that more than the words of XML Schema is accepted, among them the empty text, as C80_read says. strconv.ParseBool is transcribed from the standard library."
  },
  {
   "property": "C81",
   "status": "partial",
   "theorems": [
    "Verif.DateTime.C81_near_partial",
    "Verif.DateTime.C81_any",
    "Verif.DateTime.C81_whole_partial",
    "Verif.DateTime.C81_second_partial",
    "Verif.DateTime.C81_stops_partial",
    "Verif.DateTime.C81_refuted",
    "Verif.DateTime.C81_drift_refuted"
   ],
   "note": "False of the code: milliseconds come back one earlier (C81_refuted gives one; in a numerical experiment, not a proof, about half of those of a second in 2020), because the float is cropped, not rounded; the loss adds up when repeated (C81_drift_refuted). Proved: never later and at most one millisecond earlier per round, whole seconds (to 2116) are exact, so the time stays within its second and settles after at most 999 rounds."
  },
  {
   "property": "C82",
   "status": "partial",
   "theorems": [
    "Verif.Bind.C82_readable_partial",
    "Verif.Bind.C82_rewrite_partial",
    "Verif.Bind.C82_second_partial",
    "Verif.Bind.C82_refuted"
   ],
   "note": "Without the condition on durations it is false of the code (C82_refuted: a document with a duration of 2562047 h 47 min 16.855 s is read, and written with a sign, which is refused). With it: exactly the manifests without negative durations can be read after writing, and otherwise the error is that of ParseDuration; a duration in the last 275808 ns of the range survives one writing and not the next (C82_second_partial). Missing: captured names that do not keep their namespaces (NsOk), fields behind nil embedded pointers, for any strconv that keeps its contract (GoFloats)."
  },
  {
   "property": "C83",
   "status": "partial",
   "theorems": [
    "Verif.Bind.C83_built",
    "Verif.Bind.C83_built_indented",
    "Verif.Bind.C83_splice_partial",
    "Verif.Bind.C83_indented_partial",
    "Verif.Bind.C83_back_partial",
    "Verif.Bind.C83_refuted"
   ],
   "note": "C83_built is unconditional for periods and manifests that are built (constructors, assigned fields, SCTE-35 constructors). For values from documents the condition is Portable: captured names keep their namespaces (as in C30) and none is in that of xsi. Without it, it is false of the code: an attribute xsi:type captured in an SCTE-35 section has the prefix xsi in a manifest with a schemaLocation and a made-up one in the period on its own (C83_refuted). With indentation (C83_indented_partial, C83_built_indented) each period has the lines that it has on its own, one level further in; then its text has no new lines in character data or Ext."
  },
  {
   "property": "C84",
   "status": "partial",
   "theorems": [
    "Verif.Bind.C84_forms_partial",
    "Verif.Bind.C84_names",
    "Verif.Bind.C84_mixed_refuted"
   ],
   "note": "Carried: the SCTE-35 elements are in one namespace (any), captured attributes have no prefix or are declarations. For manifests that mix namespaces of SCTE-35 it is false of the code (C84_mixed_refuted: an element inside a section of another namespace changes its namespace). Missing: attributes with a prefix in SCTE-35 elements (for these see C42, C49 with NsOk), negative durations and nil embedded pointers (Settled, as in C49). Both documented forms meet the conditions, with each of the two namespaces (scte_ext, directVal_carried, signalVal_carried)."
  },
  {
   "property": "C85",
   "status": "partial",
   "theorems": [
    "Verif.Bind.C85_back_partial",
    "Verif.Bind.C85_built",
    "Verif.Bind.C85_names",
    "Verif.Bind.C85_refuted"
   ],
   "note": "Reading back is proved for all struct types of the manifest; the conditions on values are those of C30 (C85_built: none for values that are built). The names are false of the code for most types: C85_names says exactly which keep their name, all others are written with the name of the Go type, e.g. AdaptationSetType, and their text in a manifest is ignored (C85_refuted)."
  },
  {
   "property": "C86",
   "status": "proved",
   "theorems": [
    "Verif.DefaultSpace.C86_in_force",
    "Verif.DefaultSpace.C86_empty",
    "Verif.DefaultSpace.C86_wrapped"
   ],
   "note": "C86_wrapped is for documents that are made of complete tokens (Lexes) and end without an error; C86_in_force is for all input. Only the tokens are covered."
  },
  {
   "property": "C87",
   "status": "partial",
   "theorems": [
    "Verif.Charset.C87_converted",
    "Verif.Charset.C87_fails",
    "Verif.Charset.C87_refused",
    "Verif.Charset.C87_only",
    "Verif.Charset.C87_as_utf8",
    "Verif.Charset.C87_decode",
    "Verif.Charset.C87_latin1",
    "Verif.Charset.C87_spaced_refuted",
    "Verif.Charset.C87_again_refuted"
   ],
   "note": "Proved for declarations without white space at their equals signs. With it, which XML allows, it is false of the code: the encoding is not noticed and the bytes are taken as UTF-8 (C87_spaced_refuted). C87_again_refuted records that a second declaration, which XML does not allow, is obeyed too. The reader that the function returns is taken as its whole text; readers that fail later and the panic for a nil reader are not covered. C87_decode is for texts on which the decoder comes to an end."
  },
  {
   "property": "C88",
   "status": "partial",
   "theorems": [
    "Verif.Bind.C88_name",
    "Verif.Bind.C88_missing",
    "Verif.Bind.C88_like_field",
    "Verif.Bind.C88_attrs_iff",
    "Verif.Bind.C88_lost",
    "Verif.Bind.C88_simple",
    "Verif.Bind.C88_back_partial",
    "Verif.Bind.C88_built",
    "Verif.Bind.C88_attrs_refuted",
    "Verif.Bind.C88_other_name_refuted"
   ],
   "note": "False of the code for attributes: marshalValue replaces the list of attributes by an empty one of the right capacity (marshal.go 612-615) after it has copied those of the start element, so they are lost whenever the type has more attribute fields than the copy has room for (C88_attrs_iff says exactly when they are kept, for any growth of slices). Reading back is for types without XMLName, with any name; a type with a name in XMLName is read with this only (C88_other_name_refuted). Values are at the top of a document."
  },
  {
   "property": "C89",
   "status": "partial",
   "theorems": [
    "Verif.Bind.C89_edited_partial",
    "Verif.Bind.C89_plain_partial",
    "Verif.Bind.C89_forms_partial",
    "Verif.Bind.C89_append_partial"
   ],
   "note": "Edit is the relation of changes: any sequence, at any depth, of new values (as in C58), nil, and removed, repeated, reordered, added or changed members of lists. Missing, as in C49: documents with negative durations, captured names that do not keep their namespaces (NsOk; C89_plain_partial has no such condition but no unknown attributes; C89_forms_partial has unknown attributes without prefixes), SCTE-35 elements in another namespace; and changes of innerxml and any,attr fields and of XMLName."
  },
  {
   "property": "C90",
   "status": "partial",
   "theorems": [
    "Verif.Bind.C90_settled_partial",
    "Verif.Bind.C90_forever_partial",
    "Verif.Bind.C90_plain_partial",
    "Verif.Bind.C90_ident_refuted",
    "Verif.Bind.C90_indent_refuted"
   ],
   "note": "False in general, with two witnesses: the declaration of a ContentIdentifier is written once more in each round, and with indentation the text of an event with a signal grows in each round. Proved for all other manifests of steady values: no struct with an any,attr field in the value (Bare), no indentation or no element with both text and children (NoMix), numbers that are the same after one conversion (Steady: durations of at least half a millisecond away from the rounding step below one second, no NaN). Missing beside the refuted cases: SCTE-35 sections with captured attributes."
  },
  {
   "property": "C91",
   "status": "partial",
   "theorems": [
    "Verif.Shared.C91_at_once",
    "Verif.Shared.C91_copies",
    "Verif.Shared.C91_collected",
    "Verif.Shared.C91_others",
    "Verif.Shared.C91_lost",
    "Verif.Shared.C91_kept_refuted",
    "Verif.Shared.C91_rawToken",
    "Verif.Shared.C91_document",
    "Verif.Shared.C91_document_refuted",
    "Verif.Shared.C91_first",
    "Verif.Shared.C91_again",
    "Verif.Shared.C91_again_refuted"
   ],
   "note": "The last sentence is false of the code (C91_again_refuted): attribute names are translated in the list of the reader; C91_again proves it for readers that give copies. C91_rawToken and C91_document are for the whole tokenizer with its buffer in memory and every document; the other theorems about the buffer are for any use of it. Tokens that are kept without a copy are overwritten, as documented (C91_lost, C91_document_refuted). Strict decoders without Entity."
  },
  {
   "property": "C92",
   "status": "partial",
   "theorems": [
    "Verif.Slices.C92_apart",
    "Verif.Slices.C92_clone",
    "Verif.Slices.C92_clone_list",
    "Verif.Slices.C92_shared",
    "Verif.Slices.C92_copy_refuted"
   ],
   "note": "Proved for lists that do not share an array with room (Apart), which holds at the beginning and is kept by additions and by Clone. False for copies of a struct (c := *m): additions to the one replace those to the other (C92_shared: whenever the shared array has room). deepcopy is an external library; that it makes new arrays is taken from its purpose, not from its code."
  },
  {
   "property": "C93",
   "status": "partial",
   "theorems": [
    "Verif.Shared.C93_kept",
    "Verif.Shared.C93_append",
    "Verif.Shared.C93_append_others",
    "Verif.Shared.C93_append_refuted"
   ],
   "note": "The first sentence is proved for all runs. The second is false of the code: fields of nested elements can be slices of one array with room behind them, and appending to the inner one changes the outer one (C93_append_refuted; C93_append: whenever they share the array). C93_append_others says which fields are not changed. The manifest types use strings for such fields (SCTE-35 Ext), which are copies. Runs are any sequences of reading bytes, new buffers and fields; which of them a document gives is in C50 (Direct)."
  },
  {
   "property": "C94",
   "status": "proved",
   "theorems": [
    "Verif.Bind.C94_accepts",
    "Verif.Bind.C94_document",
    "Verif.Bind.C94_manifest",
    "Verif.Bind.C94_document_iff",
    "Verif.Bind.C94_manifest_iff",
    "Verif.Bind.C94_kept",
    "Verif.Bind.C94_lists",
    "Verif.Bind.C94_sequence",
    "Verif.Bind.C94_again",
    "Verif.Bind.C94_refuted"
   ],
   "note": "C94_accepts for all types and all documents, also with repeated elements; C94_document and C94_manifest for documents without repeated elements for single fields (as C69). C94_again and C94_refuted say what this means for a program: a manifest that is read again into the same value has all its periods twice. The old value is a tree (no pointer occurs twice in it)."
  },
  {
   "property": "C95",
   "status": "proved",
   "theorems": [
    "Verif.Several.C95_each",
    "Verif.Several.C95_end",
    "Verif.Several.C95_written",
    "Verif.Several.C95_iff",
    "Verif.Several.C95_loop",
    "Verif.Several.C95_prefix"
   ],
   "note": "C95_iff for all inputs: calls succeed exactly if the input begins with as many complete elements side by side, with the values of the elements read on their own; C95_loop: calls until an error come to an end for all inputs (up to a call that does not return, C25). C95_each and C95_end for documents that end with their root element (white space and comments behind it belong to the next document or to the rest). Stops at the first error: what later calls do after an error is not said. Tokens as in C69 (the model of the whole decoder), with the stack of open elements, the prefixes and toClose. C95_written: manifests that can be represented (the conditions of C30), written one behind the other, come back one by one, and then io.EOF."
  },
  {
   "property": "C96",
   "status": "partial",
   "theorems": [
    "Verif.Period.C96_new",
    "Verif.Period.C96_others",
    "Verif.Period.C96_behind",
    "Verif.Period.C96_moved",
    "Verif.Period.C96_clone",
    "Verif.Period.C96_repair",
    "Verif.Period.C96_run",
    "Verif.Period.C96_run_repair",
    "Verif.Period.C96_refuted"
   ],
   "note": "The first sentence is false of the code (C96_refuted): a period has one parent, and the start of the periods behind a shared one is computed through it in the other manifest; C96_moved says what it becomes. Proved: index, type and duration of all other periods stay, and the start of those before it (C96_others) and of those behind it from the next start attribute on (C96_behind); everything stays for new periods and clones (C96_new, C96_clone) and after SetParents (C96_repair); the same for any run of the Append methods that adds nothing to the first manifest (C96_run, C96_run_repair). Clone under the contract of deepcopy as in C14."
  },
  {
   "property": "C97",
   "status": "partial",
   "theorems": [
    "Verif.Lent.C97_others",
    "Verif.Lent.C97_moved",
    "Verif.Lent.C97_iff",
    "Verif.Lent.C97_above",
    "Verif.Lent.C97_repair",
    "Verif.Lent.C97_clone",
    "Verif.Lent.C97_run",
    "Verif.Lent.C97_run_one",
    "Verif.Lent.C97_refuted"
   ],
   "note": "False of the code for the shared representation itself (C97_refuted): it has one parent and inherits from the set to which it was appended last. C97_iff says exactly when its answers stay; C97_run what it inherits after any number of calls of the Append methods. Proved without condition: all other representations (C97_others), sharing of adaptation sets and periods (C97_above), SetParents (C97_repair), clones (C97_clone, under the contract of deepcopy as in C14; content protections are compared by their content)."
  }
 ]
}