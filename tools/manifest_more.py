P="Verif.Period"
c("C07","proved",["C07_start_rule"],"Requires parent links set and each period object listed once (otherwise C08 still gives termination).",P)
c("C08","proved",["C08_terminates","C08_links_needed"],"Also with repeated period objects; C08_links_needed shows that with crossed parent links the recursion never ends.",P)
c("C09","proved",["C09_tiling"],"int64 sums as in Go.",P)
c("C10","partial",["C10_duration_rule","C10_single_refuted","C10_single_partial","C10_single_iff"],"Derivation rule proved in full; the documented single-period static case is false when the period has no start attribute (C10_single_refuted). It holds exactly when start is 0 (C10_single_iff).",P)
c("C11","proved",["C11_classification"],"",P)
c("C12","proved",["C12_getIndex"],"",P)
c("C13","proved",["C13_setParents","C13_appends"],"",P)
c("C14","proved",["C14_clone_mpd","C14_clone_period","C14_clone_aset","offsetCopy_deepCopy"],"Relative to the DeepCopy contract assumed of the external go-deepcopy library; the contract is shown satisfiable.",P)
M="Verif.Misc"
c("C16","proved",["C16_addProfile","C16_sequence","profiles_exists","profiles_unique"],"For non-empty comma-free profiles and arbitrary existing lists.",M)
c("C17","partial",["C17_expand_partial","C17_refuted_id","C17_refuted_literal","C17_no_dollar","C17_replace","C17_exact"],"False of the code: text from the id is substituted again, and literal text between two identifiers can be taken for an identifier. Proved when neither occurs. Without conditions: each substitution replaces exactly the leftmost occurrences that do not overlap (C17_replace), and the function is the two substitutions one after the other (C17_exact).",M)
c("C18","proved",["C18_inherit","C18_getInit"],"Also states exactly when a missing parent makes the accessors panic.",M)
c("C19","partial",["C19_ranges_partial","C19_refuted","C19_iff"],"False for a zero initialization size and wrapping sums. C19_iff: both ranges are right exactly for a positive initialization size and a sum of at most 2^32.",M)
c("C20","partial",["C20_get_set","C20_default_refuted","C20_set_always"],"Getter/setter agree; the default value 1 is not omitted although the code intends it.",M)
c("C43","proved",["C43_spliceInfo","C43_isSCTE35"],"",M)
c("C47","proved",["C47_seconds_exact","C47_wraps"],"",M)
D="Verif.DateTime"
c("C15","proved",["C15_errors","C15_close","C15_exact"],"Instants within the int64 nanosecond range.",D)
c("C21","partial",["C21_read","C21_text_S","C21_text_MS","C21_text_float","C21_read_close","C21_seconds_iff","C21_seconds_partial","C21_refuted","C21_far_refuted","C21_outside"],"Exact round trip is false for odd seconds between 4611686019 and 2^33; characterised exactly. Beyond 2262 the result is meaningless; outside the years 0-9999 it is an error (C21_outside).",D)
X="Verif.Xml"
c("C23","proved",["C23_content","C23_string","C23_attr","C23_content_any","C23_string_any","C23_attr_any","C23_injective","C23_lossy"],"For every text of XML characters, exactly; for arbitrary bytes, up to U+FFFD replacing what XML cannot carry (C23_lossy shows that this is needed).",X)
c("C24","proved",["C24_string","C24_content","C24_no_markup","C23_attr_any"],"All byte strings.",X)
c("C25","partial",["C25_ends_iff","C25_bound","C25_refuted"],"False of the code: a raw > in character data makes the decoder return empty text forever. Reading ends exactly when that state is never reached, and then within 2*length+1 tokens.",X)
c("C26","proved",["C26_nested","C26_eof_closed"],"",X)
c("C27","proved",["C27_scoping"],"",X)
c("C28","proved",["C28_wellformed"],"For every tree of elements with legal names (any prefixes, namespaces, attributes, text, depth) and any white space indentation: if printing succeeds, the decoder accepts the output to its end, tags are balanced, one root.",X)
c("C29","partial",["C29_names_partial","C29_refuted","C29_refuted_prefix","C29_refuted_capture"],"False in general (three ways, with witnesses). Proved for all trees in which prefixes and namespaces correspond one to one on each path and default namespaces are not shadowed; then the decoder reads exactly the tree's expanded names, attributes and text.",X)
B="Verif.Bind"
c("C31","partial",["C31_unknown_ignored","C31_foreign_refuted"],"Elements, attributes, comments and processing instructions without a field are ignored at every depth. False for attributes of a foreign namespace whose local name is that of a field (C31_foreign_refuted): they are read into the field.",B)
c("C32","proved",["C32_attribute_order"],"Every permutation of attributes that do not go to the same field, at any depth of any document.",B)
c("C33","proved",["C33_interleaving","C33_list_order"],"Every exchange of neighbouring elements that go to different fields leaves the result unchanged; the elements of a list keep document order.",B)
c("C39","partial",["C39_refuted","C39_marshal","C39_write_iff","C39_read_partial","C39_common_partial"],"False of the code: a document without a required attribute of an embedded group is read, and writing the result panics. Every manifest that was read is written without error exactly when no embedded pointer in it is nil (C39_read_partial), in particular if it has no ReplacePresentation (C39_common_partial); for manifests built in other ways the same holds if explicitly set element names are acceptable (C39_write_iff).",B)
c("C40","partial",["C40_fields_partial","C40_refuted"],"False for the nine fields listed in `misnamed`; proved for all other fields of all types.",B)
c("C46","partial",["C46_qualified_partial","C46_refuted"],"False for xlink attributes of AdaptationSet and SegmentList whose tags have a prefix but no namespace; proved for all other fields.",B)
c("C48","partial",["C48_refuted","C48_once_partial"],"False of the code: a ContentIdentifier whose namespace is declared on the element is read and written with the declaration twice, which XML parsers reject. Proved for every manifest that meets the conditions of C30 and OnceV: other attributes have distinct names, declarations come first and not in an element with a prefix, attribute lists have at most one entry.",B)
c("C41","proved",["C41_read_int","C41_read_uint","C41_written","C41_content","C41_ptr"],"Attributes and element content, all bit sizes, with or without a pointer.",B)
c("C30","partial",["C30_roundtrip_partial","C30_values_partial","C30_tidy_partial","C30_exact_partial","C30_lost"],"Every canonical manifest with resolvable names is read back equal, with any indentation, for any strconv that keeps its documented contract (GoFloats); where text is together with elements, indentation adds white space around it and nothing else (Loose); durations come back rounded to milliseconds or one nanosecond less, whole seconds exactly (SameDur). Any text and any lists: what is read is the value with forbidden characters replaced and nil members dropped (C30_tidy_partial), so that it is the same value exactly if it has none (C30_exact_partial), and values that differ in those only have the same document (C30_lost). All numbers come back, infinities and NaN among them. Missing: values outside Rough and NsOk (negative durations, which cannot be read back, C82; names that are not kept; see DESIGN.md); a duration in the last 275808 ns of the range comes back as one fixed negative duration (SameDur).",B)
F="Verif.FloatText"
c("C22","partial",["C22_inf","C22_finite_partial","C22_injective","C22_others","C22_refuted"],"Finite values and +Inf as stated, for any strconv that keeps its documented contract (shortest digits that read back; correctly rounded parsing), which goFloat_ok shows satisfiable; -Inf and NaN are read back, but not written in decimal notation (C22_refuted).",F)
c("C38","partial",["C38_indent_partial","C38_same_partial","C38_values_partial","C38_refuted"],"False for elements with both text and child elements (SCTE-35 events): the indentation is read as text (C38_refuted). Proved for all canonical manifests: indentation adds white space around such text and changes nothing else (C38_indent_partial); without such elements it changes nothing at all (C38_same_partial).",B)
c("C42","partial",["C42_captured","C42_replayed","C42_passthrough_partial"],"Names are captured from any document and written back for all values; the composed statement has the hypotheses of C30.",B)
W="Verif.WriteIO"
c("C34","proved",["C34_write","C34_contract_needed","produced_ok","produced_error"],"For destinations that keep the io.Writer contract (C34_contract_needed shows it is needed). The walk of the value is modelled call by call, with bufio.Writer.",W)
c("C35","proved",["C35_write","C35_concurrent","ready_finishes","pooled_release"],"All interleavings of any number of concurrent calls, with a pool that gives any of its encoders or a new one and may forget encoders.",W)
c("C36","proved",["C36_string"],"",W)
c("C37","proved",["C37_transparent","C37_shared","C37_name","internBytes_full"],"Any sequence of names; also that a repeated name is the same string object while the table has room.",X)
T="Verif.TypeCache"
c("C44","proved",["C44_typeInfo","C44_typeImpl","call_returns","sch_of_info"],"All interleavings of any number of goroutines with atomic sync.Map operations, including the nested calls for embedded structs.",T)
c("C45","proved",["C45_all_or_nothing","C45_same","C45_after_root","C45_root","numbered_good"],"Also that a document cut anywhere before the end of its root element is rejected. For every allocation of the decoded objects in separate memory.",B)
c("C49","partial",["C49_rewrite_partial","C49_plain_partial"],"Proved for every document whose manifest has durations that are not negative (the only condition on values; it is necessary, C82), and names that keep their meaning (NsOk); the latter always holds without SCTE-35 elements and attributes unknown to the library (C49_plain_partial).",B)
c("C50","partial",["C50_captured","C50_read","C50_passthrough_partial","C50_rewrite_partial"],"Reading is proved for all documents; writing and reading back under the conditions of C30 and C49.",B)
c("C51","partial",["C51_refuted","C51_meaning_partial","scoped_selfContained"],"False in general: a prefix declared outside Ext is not written (C51_refuted). Proved for content that declares the prefixes and default namespaces it uses, under the conditions of C49.",B)
c("C52","proved",["C52_unique","C52_complete","C52_sound","C52_names","mpd_distinct"],"For every struct type for which getTypeInfo returns a table (it returns an error for two fields of the same name and depth). C52_names needs field names to be distinct within a struct, which Go demands; mpd_distinct: so it is in the library.",B)
c("C53","proved",["C53_layout","C53_same","C53_written","C53_success"],"All trees of items (any prefix and indent), and whole documents.",X)
G="Verif.Grammar"
c("C54","partial",["C54_wellformed_partial","C54_root","C54_refuted","C54_spaces_refuted","C54_subset_refuted","C54_defaults_refuted","C54_entities_refuted"],"False of the code: the decoder never gets past a literal > in text (C54_refuted), does not replace tabs and line ends in attribute values by spaces (C54_spaces_refuted), misreads processing instructions with quotes or angle brackets in the internal subset (C54_subset_refuted), and ignores attribute defaults and entities declared there (C54_defaults_refuted, C54_entities_refuted). Proved for all other well-formed documents; C54_root says that declarations are passed over whatever they are.",G)
c("C55","proved",["C55_spelling","C55_spelling_exact"],"All struct types. For the documents of C54_wellformed_partial. Namespace declarations count as attributes here.",G)
c("C56","partial",["C56_prefixes_partial","C56_manifests_partial","C56_refuted"],"False for prefixes named like an attribute: xmlns:id is read as the attribute id (C56_refuted). Proved for all other prefixes, for the documents of C54_wellformed_partial.",G)
c("C57","partial",["C57_accuracy","C57_monotone","C57_roundtrip_partial","C57_refuted"],"Accuracy and order are proved up to 9e9 seconds. The way through Seconds and back is exact up to 2^51 + 1 microseconds (71 years) and fails at the next one (C57_refuted).","Verif.DurFloat")
c("C58","proved",["C58_constructors","C58_built","C58_new"],"For any strconv that keeps its documented contract (GoFloats). C58_built: more generally, values built from new structs by assigning fields and appending to lists, with finite numbers and durations that have a faithful text (C06). C58_new: for which types a new value qualifies.",B)
c("C59","partial",["C59_distinct","C59_unknown_iff","C59_refuted"],"Names are distinct, but PTRegularOrEarlyTerminated is called unknown, as PTBad is (C59_refuted); C59_unknown_iff says exactly for which periods.","Verif.Period")
c("C60","proved",["C60_written","new_zero"],"All byte strings (bytes that are not valid UTF-8 or not XML characters become U+FFFD in the text), all numbers, all int64 durations; without indentation (C53 says what indentation adds).","Verif.Written")
c("C61","partial",["C61_namespace_partial","C61_constructors","C61_new","C61_refuted"],"False of the code: 15 of the 28 SCTE-35 types have no constructor, and one made with a struct literal (such as Program) is written with xmlns=\"\", so that it and the elements inside, even those made with constructors, are in no namespace (C61_refuted). Proved when each of these elements has a name in the SCTE-35 namespace; the constructors give it.",B)
E="Verif.EncTok"
c("C62","partial",["C62_comment","C62_procInst","C62_directive","C62_refuted_comment","C62_refuted_procInst","C62_refuted_directive"],"False of the code: comments with -- inside, processing instructions whose data begins with a space, and some directives (empty, beginning with [ or -, with comments inside) are accepted but not returned as the same token. The first three theorems say exactly which tokens are accepted and which of them are returned.",E)
c("C63","proved",["C63_stream","C63_exact","C63_matched"],"C63_stream: all lists of tokens whose names resolve as in C29, with comments, processing instructions and directives that are read back (C62). C63_exact: tokens without namespaces come back unchanged. C63_matched: for any tokens at all.",E)
MC="Verif.Machine"
c("C64","partial",["C64_positions","C64_line","C64_line_range","C64_local","C64_char_refuted"],"False of the code in one respect: the line given for an illegal character is the line where the text ends that has it (C64_char_refuted). The rest is proved.",MC)
c("C65","proved",["C65_saved"],"For the byte-by-byte machine, which C64_positions relates to the functions of the other theorems.",MC)
DI="Verif.Direct"
c("C66","proved",["C66_decode","C66_local","C66_same_error"],"For every fuel from an explicit bound on, linear in the length of the input; a document on which the decoder does not return (a raw > in text, C25) has no result with any fuel.",DI)
RE="Verif.ReadErr"
c("C67","partial",["C67_failure","C67_definite_partial","C67_value","C67_refuted"],"False of the code in one respect: when the reader fails in the middle of a character of text, the check of characters runs on what was read so far and its error replaces that of the reader (C67_refuted). Proved for everything else; values are never affected (C67_value).",RE)
SP="Verif.Steps"
c("C68","proved",["C68_token","C68_linear","C68_document"],"Counts the calls of Token, getc and ungetc, not the work between them (look-ups of names, copies of text). Documents on which Unmarshal does not return (C25) are excluded: they have no bound.",SP)
c("C69","proved",["C69_document","C69_manifest","C69_read","C69_counts","C69_refuted"],"C69_refuted shows that the condition (no element for a single field repeated) is needed: repeated elements are merged or replaced. Numbers, durations and floating-point numbers in attributes and text are left to copySimple and readSimpleAttr (C03, C04, C22, C41).",B)
c("C70","proved",["C70_document","C70_stored","C70_written","C70_built"],"C70_written has the conditions of C30 (C70_built: none beyond new structs and whole seconds). For durations that are not whole seconds the start and duration attributes come back rounded as in C06, and the computed starts follow those rounded values. The contract of the allocation (Alloc.Timed: the objects carry the attributes of the value) stands for Go structs.",B)
c("C71","proved",["C71_accepts","C71_fails","C71_unique","C71_refuted"],"About the model of time.Parse for the one layout RFC3339MS (trusted transcription of the standard library). C71_refuted: texts outside ISO 8601 are accepted.","Verif.DateTime")
c("C72","partial",["C72_table","C72_accepts","C72_read","C72_written","C72_roundtrip","C72_refuted"],"False of the code for tags with a namespace and a path: the parents are written without the namespace and only read in it (C72_refuted). Proved for fields without namespaces. No type of the manifest has such tags; the xml package offers them. About elements as trees; that tags in the text are read as trees is C28, C54.","Verif.Paths")
c("C73","partial",["C73_cdata","C73_content","C73_document","C73_illegal","C73_comment","C73_refuted","C73_comment_refuted"],"False of the code in two respects: characters that XML does not allow are written as they are and make the document unreadable (C73_refuted; C73_illegal: always, C73_cdata: only then), and a comment that ends in - comes back with a space (C73_comment_refuted; C73_comment: nothing else changes). Line ends are normalized, as XML demands.","Verif.Cdata")
c("C74","partial",["C74_contained","C74_skip","C74_same","C74_refuted","C74_careless_refuted","C74_panic_refuted"],"Proved for methods that keep the two rules of the statement. Without them it is false of the code: a call of DecodeElement after the end of the element lets the method read its parent (C74_refuted) or panics (C74_panic_refuted); ignoring a failed DecodeElement leaves a mark, and an element that was not read counts as read (C74_careless_refuted). Methods that never return are not programs of the model.","Verif.Sandbox")
c("C75","partial",["C75_balanced","C75_bound","C75_document","C75_strict","C75_prefix","C75_is_strict","C75_refuted","C75_declaration_refuted","C75_case_refuted"],"Nesting of local names, order and number are proved for all input; for full names it is false of the code: an invented end element has the prefix in place of the namespace (C75_refuted), and after a missing end tag of an element with a namespace declaration the parent's end tag is refused (C75_declaration_refuted). C75_document is for input without namespaces; strings.EqualFold is any reflexive relation. Decoders made with NewTokenDecoder are not covered; how raw tokens are read in non-strict mode is C79.","Verif.Loose")
c("C76","proved",["C76_below","C76_complete","C76_iff","C76_swallow","C76_read","C76_after_refuted"],"For all programs. C76_after_refuted records that after a failure the encoder cannot be used any more (the mark stays), which the statement does not claim. Close and Indent called by the method and failing writers are not covered.","Verif.Guard")
c("C77","partial",["C77_iff","C77_ordinary_partial","C77_error","C77_nested","C77_refuted"],"False of the code for documents that use one of the words xml and xmlns as a name space (C77_refuted); C77_iff says exactly when it holds. Only the results up to the first error are modelled; fields with innerxml, which need the bytes, are not covered.","Verif.Piped")
c("C78","proved",["C78_read","C78_fails","C78_roundtrip","C78_refuted"],"C78_roundtrip is for elements and attributes without name spaces, as in C63. C78_refuted records that characters XML does not allow come back as U+FFFD, which the statement excludes. The methods themselves are foreign code: any text.","Verif.TextMethods")
c("C79","partial",["C79_strict","C79_default","C79_references","C79_unknown","C79_unquoted","C79_cut","C79_nested","C79_bare_partial","C79_bare_refuted","C79_bare_tag_refuted","C79_bare_empty_refuted","C79_bare_next_refuted"],"False of the code for attributes without a value: the byte after the name is taken and not put back (xml.go 869-874), so <p nowrap></p> is an error, <input x/> is not closed, and the first letter of the next attribute is lost. Everything else is proved. A nil CharsetReader; the first error ends the run.","Verif.Lenient")
c("C80","proved",["C80_read","C80_schema","C80_written","C80_refuted"],"C80_refuted records that more than the words of XML Schema is accepted, among them the empty text, as C80_read says. strconv.ParseBool is transcribed from the standard library.",B)
c("C81","partial",["C81_near_partial","C81_any","C81_whole_partial","C81_second_partial","C81_stops_partial","C81_refuted","C81_drift_refuted"],"False of the code: milliseconds come back one earlier (C81_refuted gives one; in a numerical experiment, not a proof, about half of those of a second in 2020), because the float is cropped, not rounded; the loss adds up when repeated (C81_drift_refuted). Proved: never later and at most one millisecond earlier per round, whole seconds (to 2116) are exact, so the time stays within its second and settles after at most 999 rounds.",D)
c("C82","partial",["C82_readable_partial","C82_rewrite_partial","C82_second_partial","C82_refuted"],"Without the condition on durations it is false of the code (C82_refuted: a document with a duration of 2562047 h 47 min 16.855 s is read, and written with a sign, which is refused). With it: exactly the manifests without negative durations can be read after writing, and otherwise the error is that of ParseDuration; a duration in the last 275808 ns of the range survives one writing and not the next (C82_second_partial). Missing: captured names that do not keep their namespaces (NsOk), fields behind nil embedded pointers, for any strconv that keeps its contract (GoFloats).",B)
c("C83","partial",["C83_built","C83_built_indented","C83_splice_partial","C83_indented_partial","C83_back_partial","C83_refuted"],"C83_built is unconditional for periods and manifests that are built (constructors, assigned fields, SCTE-35 constructors). For values from documents the condition is Portable: captured names keep their namespaces (as in C30) and none is in that of xsi. Without it, it is false of the code: an attribute xsi:type captured in an SCTE-35 section has the prefix xsi in a manifest with a schemaLocation and a made-up one in the period on its own (C83_refuted). With indentation (C83_indented_partial, C83_built_indented) each period has the lines that it has on its own, one level further in; then its text has no new lines in character data or Ext.",B)
c("C84","partial",["C84_forms_partial","C84_names","C84_mixed_refuted"],"Carried: the SCTE-35 elements are in one namespace (any), captured attributes have no prefix or are declarations. For manifests that mix namespaces of SCTE-35 it is false of the code (C84_mixed_refuted: an element inside a section of another namespace changes its namespace). Missing: attributes with a prefix in SCTE-35 elements (for these see C42, C49 with NsOk), negative durations and nil embedded pointers (Settled, as in C49). Both documented forms meet the conditions, with each of the two namespaces (scte_ext, directVal_carried, signalVal_carried).",B)
c("C85","partial",["C85_back_partial","C85_built","C85_names","C85_refuted"],"Reading back is proved for all struct types of the manifest; the conditions on values are those of C30 (C85_built: none for values that are built). The names are false of the code for most types: C85_names says exactly which keep their name, all others are written with the name of the Go type, e.g. AdaptationSetType, and their text in a manifest is ignored (C85_refuted).",B)
c("C86","proved",["C86_in_force","C86_empty","C86_wrapped"],"C86_wrapped is for documents that are made of complete tokens (Lexes) and end without an error; C86_in_force is for all input. Only the tokens are covered.","Verif.DefaultSpace")
c("C87","partial",["C87_converted","C87_fails","C87_refused","C87_only","C87_as_utf8","C87_decode","C87_latin1","C87_spaced_refuted","C87_again_refuted"],"Proved for declarations without white space at their equals signs. With it, which XML allows, it is false of the code: the encoding is not noticed and the bytes are taken as UTF-8 (C87_spaced_refuted). C87_again_refuted records that a second declaration, which XML does not allow, is obeyed too. The reader that the function returns is taken as its whole text; readers that fail later and the panic for a nil reader are not covered. C87_decode is for texts on which the decoder comes to an end.","Verif.Charset")
c("C88","partial",["C88_name","C88_missing","C88_like_field","C88_attrs_iff","C88_lost","C88_simple","C88_back_partial","C88_built","C88_attrs_refuted","C88_other_name_refuted"],"False of the code for attributes: marshalValue replaces the list of attributes by an empty one of the right capacity (marshal.go 612-615) after it has copied those of the start element, so they are lost whenever the type has more attribute fields than the copy has room for (C88_attrs_iff says exactly when they are kept, for any growth of slices). Reading back is for types without XMLName, with any name; a type with a name in XMLName is read with this only (C88_other_name_refuted). Values are at the top of a document.",B)
c("C89","partial",["C89_edited_partial","C89_plain_partial","C89_forms_partial","C89_append_partial"],"Edit is the relation of changes: any sequence, at any depth, of new values (as in C58), nil, and removed, repeated, reordered, added or changed members of lists. Missing, as in C49: documents with negative durations, captured names that do not keep their namespaces (NsOk; C89_plain_partial has no such condition but no unknown attributes; C89_forms_partial has unknown attributes without prefixes), SCTE-35 elements in another namespace; and changes of innerxml and any,attr fields and of XMLName.",B)
c("C90","partial",["C90_settled_partial","C90_forever_partial","C90_plain_partial","C90_ident_refuted","C90_indent_refuted"],"False in general, with two witnesses: the declaration of a ContentIdentifier is written once more in each round, and with indentation the text of an event with a signal grows in each round. Proved for all other manifests of steady values: no struct with an any,attr field in the value (Bare), no indentation or no element with both text and children (NoMix), numbers that are the same after one conversion (Steady: durations of at least half a millisecond away from the rounding step below one second, no NaN). Missing beside the refuted cases: SCTE-35 sections with captured attributes.",B)
SH="Verif.Shared"
c("C91","partial",["C91_at_once","C91_copies","C91_collected","C91_others","C91_lost","C91_kept_refuted","C91_rawToken","C91_document","C91_document_refuted","C91_first","C91_again","C91_again_refuted"],"The last sentence is false of the code (C91_again_refuted): attribute names are translated in the list of the reader; C91_again proves it for readers that give copies. C91_rawToken and C91_document are for the whole tokenizer with its buffer in memory and every document; the other theorems about the buffer are for any use of it. Tokens that are kept without a copy are overwritten, as documented (C91_lost, C91_document_refuted). Strict decoders without Entity.",SH)
SL="Verif.Slices"
c("C92","partial",["C92_apart","C92_clone","C92_clone_list","C92_shared","C92_copy_refuted"],"Proved for lists that do not share an array with room (Apart), which holds at the beginning and is kept by additions and by Clone. False for copies of a struct (c := *m): additions to the one replace those to the other (C92_shared: whenever the shared array has room). deepcopy is an external library; that it makes new arrays is taken from its purpose, not from its code.",SL)
c("C93","partial",["C93_kept","C93_append","C93_append_others","C93_append_refuted"],"The first sentence is proved for all runs. The second is false of the code: fields of nested elements can be slices of one array with room behind them, and appending to the inner one changes the outer one (C93_append_refuted; C93_append: whenever they share the array). C93_append_others says which fields are not changed. The manifest types use strings for such fields (SCTE-35 Ext), which are copies. Runs are any sequences of reading bytes, new buffers and fields; which of them a document gives is in C50 (Direct).",SH)
c("C94","proved",["C94_accepts","C94_document","C94_manifest","C94_document_iff","C94_manifest_iff","C94_kept","C94_lists","C94_sequence","C94_again","C94_refuted"],"C94_accepts for all types and all documents, also with repeated elements; C94_document and C94_manifest for documents without repeated elements for single fields (as C69). C94_again and C94_refuted say what this means for a program: a manifest that is read again into the same value has all its periods twice. The old value is a tree (no pointer occurs twice in it).","Verif.Bind")
c("C95","proved",["C95_each","C95_end","C95_written","C95_iff","C95_loop","C95_prefix"],"C95_iff for all inputs: calls succeed exactly if the input begins with as many complete elements side by side, with the values of the elements read on their own; C95_loop: calls until an error come to an end for all inputs (up to a call that does not return, C25). C95_each and C95_end for documents that end with their root element (white space and comments behind it belong to the next document or to the rest). Stops at the first error: what later calls do after an error is not said. Tokens as in C69 (the model of the whole decoder), with the stack of open elements, the prefixes and toClose. C95_written: manifests that can be represented (the conditions of C30), written one behind the other, come back one by one, and then io.EOF.","Verif.Several")
c("C96","partial",["C96_new","C96_others","C96_behind","C96_moved","C96_clone","C96_repair","C96_run","C96_run_repair","C96_refuted"],"The first sentence is false of the code (C96_refuted): a period has one parent, and the start of the periods behind a shared one is computed through it in the other manifest; C96_moved says what it becomes. Proved: index, type and duration of all other periods stay, and the start of those before it (C96_others) and of those behind it from the next start attribute on (C96_behind); everything stays for new periods and clones (C96_new, C96_clone) and after SetParents (C96_repair); the same for any run of the Append methods that adds nothing to the first manifest (C96_run, C96_run_repair). Clone under the contract of deepcopy as in C14.","Verif.Period")
c("C97","partial",["C97_others","C97_moved","C97_iff","C97_above","C97_repair","C97_clone","C97_run","C97_run_one","C97_refuted"],"False of the code for the shared representation itself (C97_refuted): it has one parent and inherits from the set to which it was appended last. C97_iff says exactly when its answers stay; C97_run what it inherits after any number of calls of the Append methods. Proved without condition: all other representations (C97_others), sharing of adaptation sets and periods (C97_above), SetParents (C97_repair), clones (C97_clone, under the contract of deepcopy as in C14; content protections are compared by their content).","Verif.Lent")
