# Formal model of Eyevinn/dash-mpd in Lean 4

The Go source in `/repo` is read as text; nothing in it was built or run.  Each modelled Go function is a total Lean
definition in `lean/Verif/`, with a comment citing file and lines.  Specifications are separate, small definitions that do
not use the helper functions of the model.  `MANIFEST.json` lists the theorems for each property of `properties.jsonl`.

## Trusted base

* The Lean 4.33.0 kernel.  The axioms used are at most `propext`, `Classical.choice` and `Quot.sound`; there is no `sorry`,
  no `native_decide`, no `bv_decide` and no axiom of our own.  `decide +kernel` and the tactic `krfl` (`Verif/KRfl.lean`,
  which closes `a = b` with `Eq.refl`) make the kernel evaluate; the elaborator is not trusted with the result.
* That the Lean definitions say what the Go code does.  Every definition cites the lines it transcribes.  Mutation tests
  (`seeded/LOG.jsonl`) check that the theorems notice wrong definitions.  The log lists the theorems at which the build
  stops, often lemmas used by a property theorem.  That shows that the proof depends on the definition, not by itself that
  the statement is false of the edited program; an entry with `false_on` also gives a Lean proof of
  wrong behaviour that is accepted for the edited program and rejected for the original.
* The schema of the manifest types, `Verif/MpdSchema.lean`, is written by `tools/gen_schema.py` from the struct
  declarations in `/repo/mpd/mpd.go`, `scte35.go` and `scte214.go`: every field with its name, tag and type.
* Go semantics: two's complement wrap of `int64`, `uint32`, `uint64`; IEEE 754 binary64 arithmetic rounded to nearest, ties
  to even (`Verif/Float.lean`: `fl`, exact rationals rounded to 53 bits); conversion of a float to `int64` out of range is a
  parameter (`arch`), since Go leaves it to the machine.
* Standard library functions, transcribed or given by their documented contract:
  `strconv.ParseInt/ParseUint/FormatInt/AppendUint/ParseBool` (transcribed, `Verif/Strconv.lean`), `strconv.ParseFloat` as
  correct rounding, `strconv.FormatFloat(-1)` as *a* shortest digit string that rounds back, `NaN`, `+Inf`, `-Inf` (contract `GoFloats` in
  `Verif/FloatText.lean`; `goFloat_ok` shows an implementation), `unicode/utf8` (transcribed, `Verif/Utf8.lean`),
  `strings.Split/Cut/ReplaceAll/Contains/TrimSpace/TrimRight/EqualFold`, `time.Format/Parse` for the two layouts used and the
  civil calendar (transcribed and proved against a day-number specification), `bufio.Writer` (transcribed,
  `Verif/WriteIO.lean`), `strings.Builder`, `sync.Pool` (gives any encoder put back or a new one, may forget encoders),
  `sync.Map` (each operation atomic), `reflect` (a value has the fields of its type; `IsZero`, `Implements` as documented).
* `github.com/barkimedes/go-deepcopy` is not in `/repo`; `Clone` is proved relative to the contract `DeepCopy`
  (`Verif/Period.lean`), which `offsetCopy_deepCopy` shows satisfiable.

## Conventions

Go `string` and `[]byte` are `List UInt8` (`Bytes`); nil pointers are `Option`; errors are values; slices are lists (nil and
empty are not distinguished in manifests); object identity is an address in an explicit heap (`Verif/Period.lean`); a panic
is an outcome of its own.  Go `int` counters (byte count, `seq`, depth) are unbounded.  Loops with an explicit fuel have a
theorem that the fuel is never used up.  The decoder runs in strict mode on a byte list, which is what `xml.Unmarshal` sets
up.  `Verif/Tree.lean` is a second, simpler reader (trees instead of tokens); `TreeProps` proves the token loop equal to it.

## What is modelled

| Go code | Lean |
|---|---|
| `mpd/duration.go` | `Duration` (`String`, `fmtFrac`, `fmtInt`, `ParseDuration`, attribute methods) |
| `mpd/period.go`, `mpd/parents.go`, `mpd/up.go`, `Clone` functions | `Period` |
| `mpd/io.go` | `ReadIO` (reading), `WriteIO` (writing), `DateTime` (date-times) |
| `mpd/ptrs.go`, `AddProfile`, `GetInit/GetMedia`, accessors, `SetSegmentBase`, timescale, `SpliceInfo`, `IsSCTE35` | `Misc` |
| `FloatInf64` methods | `Marshal`, `Unmarshal`, `FloatText` |
| struct types of the manifest with their tags | `MpdSchema` |
| `>` paths in tags (`addFieldInfo`, `parentStack`, `unmarshalPath`) | `Paths` |
| `,cdata` and `,comment` fields (`emitCDATA`, `marshalStruct`) | `Cdata` |
| `UnmarshalXML` methods: `pushEOF`, `popEOF`, `unmarshalInterface` | `Sandbox` |
| `MarshalXML` methods: `marshalInterface` | `Guard` |
| `NewTokenDecoder` | `Piped` |
| `marshalTextInterface`, `unmarshalTextInterface` | `TextMethods` |
| `Token`, `popElement`, `autoClose` with `Strict = false` | `Loose` |
| `rawToken`, `text`, `attrval`, `Token` with any `Strict`, `Entity`, `AutoClose`, on bytes | `Lenient` |
| `xml/typeinfo.go` | `Schema` (what is computed), `TypeCache` (the caches, concurrency) |
| `xml/xml.go` tokenizer, text, names, escaping, name table | `XmlText`, `XmlToken`, `Utf8`, `Intern` |
| the same byte by byte: `getc`, `ungetc`, positions, saved input | `Machine` |
| the same with the buffer `d.buf` in memory and slices of it in tokens; `CopyToken` | `Shared`, `SharedRaw` |
| `xml/read.go` | `Unmarshal` (from the list of all tokens), `Direct` (token by token on the machine, with the buffer for `innerxml`), `ReadErr` (the same with a reader that fails) |
| `xml/marshal.go` | `Marshal` (walk), `XmlPrint` (tags, namespaces, indentation), `WriteIO` (calls, buffering, errors, pool) |

Not modelled: `,any` on elements, interfaces, maps, arrays, embedded types with
an `XMLName`, `MarshalXML`/`UnmarshalXML`/`TextMarshaler` methods (but see C74 for `UnmarshalXML`, C76 for `MarshalXML` and C78 for text methods) (no type of the manifest has any of these); `CharsetReader` (but see C87), `DefaultSpace` (but see C86), `TokenReader` (but see C77 and C91); `EncodeElement` below other elements (at the top see C88); the
reduced depth limit on WebAssembly; overflow of Go `int` counters; `ParseFloat` on hexadecimal and underscored input (only
decimal text is ever written; on reading, the contract speaks about decimal numerals, `INF`-like words and nothing else).

## Properties

Status is in `MANIFEST.json`.  "False" means that the code violates the property as first stated; then a theorem
`…_refuted` has a concrete witness and a theorem `…_partial` says what does hold.

| id | model and proof |
|---|---|
| C01 | `Duration.goString` on all of int64. `C01_string_denotes_partial`: the text is read by the XSD grammar (`DurationSpec`) as the rounded value. False on [0.9995 s, 1 s), where the fraction carries into a second that is dropped (`C01_refuted`; `C01_exceptional_range` describes it), and only there (`C01_iff`). |
| C02 | `put` fails outside the 32-byte buffer; `C02_string_total`: never, at most 21 bytes. |
| C03–C05 | `ParseDuration` as list recursion with exact binary64 arithmetic. `C04_accepts_iff` with the grammar `Fields.Valid`; `C03_parse_value` bounds the error; negative results through wrapping are possible (`C05_refuted`), for whole seconds exactly when the denoted time modulo 2^64 ns is in the upper half (`C05_sign_iff`, `Exact.lean`). |
| C06 | composition of the two, rounding analysis (`DurationLemmas`). False below 0.5 ms, in the gap of C01 and at the top of the range. `DurationCycle.lean`: `C06_cycle` says for every int64 duration what it becomes (up to one nanosecond), `C06_settles` that the value comes to rest. |
| C07–C12 | heap of objects with parent links; the rule of ISO/IEC 23009-1 as a recursive relation on lists (`PeriodSpec`). `C08_links_needed`: with crossed links `GetStart` never returns. C10: the single-period case is false without an explicit start (`C10_single_refuted`), and `C10_single_iff` says exactly when it holds. |
| C13, C14 | writes to the heap as a list, last write wins; `Clone` against the `DeepCopy` contract; isolation = no address of the clone is an old one, and old objects are unchanged. |
| C15, C21 | civil calendar proved against day counting; float seconds exact. C21 false for odd seconds in a range near 2^32 s and beyond 2262 (`C21_seconds_iff` is exact). |
| C16–C20 | list and string laws. False: C17 (substituted text is substituted again; what is returned in every case: `C17_exact` in `Exact.lean`), C19 (zero size, wrapping sums; exactly then: `C19_iff` in `Exact.lean`), C20 (default never cleared). |
| C22 | bit patterns (`FloatBits`), numerals and layouts of `FormatFloat` (`FloatText`), nearest-value and shortest-digits theory. False for `-Inf` and `NaN` (`C22_refuted`). |
| C23, C24 | rune-level escaping and the `text` loop; induction on runes. |
| C25–C27 | `rawToken`/`token` as state machines. C25 false: a raw `>` in text makes the decoder return empty text forever; `C25_ends_iff` says exactly when reading ends. C27: the map with undo records equals a specification with one scope per element. |
| C28, C29 | printer on arbitrary trees; `Resolve` gives each name its meaning independently of the printer. C29 false in three ways (shadowed default namespace, unbound prefix, captured prefix). |
| C30, C38 | `Canon`/`Fine` (values the format can carry), `NsOk` (names that keep their meaning), `Back` (what survives). Induction on types with the tree reader (`RoundTrip`). C38 is false for elements with text and child elements (`C38_refuted`): there `Loose` allows white space around the text, and nothing else may differ. Numbers come back as the same bits, any NaN as a NaN. Durations come back rounded to milliseconds or one nanosecond less, whole seconds exactly, and in the last 275808 ns of the range as one negative duration (`SameDur`). `Tidy.lean`: `tidy` replaces forbidden characters and drops nil members of lists; a value and its tidied form have the same bytes (`writeDoc_tidy`, by induction on types, with items compared up to what is escaped), and `Back` tells them apart (`back_tidy`), so the conditions of `Fine` on text and lists are necessary (`C30_exact_partial`). |
| C31–C33 | edits anywhere in a document (`Anywhere`), proved on the tree reader and carried over by `unmarshalDoc_tree`. C31 false for attributes of a foreign namespace with the local name of a field. |
| C34–C36 | destination = arbitrary state machine with the `io.Writer` contract; every call of the printer is modelled; pool and concurrent calls as interleavings. |
| C37 | table with addresses; transparency, sharing and bound. |
| C39 | false: a missing required group makes the write panic (`C39_refuted`). `Came`: what is the case for every value that was read, by induction on the reader; `EncodeOk`: the encoder fails only on names it was given; hence `C39_read_partial`, an exact condition for every document. |
| C40, C46 | all fields of all types of the manifest, by kernel evaluation of the complete finite table. False for the fields listed in `misnamed` and for xlink tags without namespace. |
| C41 | `Leaf`: integers of all sizes, attributes and content. |
| C42, C43 | `SctePass`: names captured and replayed. |
| C44 | programs over an atomic map, all interleavings. |
| C45 | `ReadIO`, `Local`, `Truncate`: what follows the root is ignored; every proper prefix is rejected. |
| C47 | direct. |
| C48 | false (`C48_refuted`). `C48_once_partial`: invariant over the attributes of a tag (prefixes declared so far are never declared again), for values that satisfy `Canon`, `NsOk` and `OnceV`; the names compared are those after resolving prefixes. |
| C49 | `Came` and `Settled` give `Fine`, then C30. `Settled` has what does not follow from reading: durations that are not negative (necessary, C82), names of captured attributes that start like names (the decoder accepts `x:1b`). What an `innerxml` field has was read between the tags of an element and is well-formed content (`isDoc_chunks`). |
| C50 | `inners` lists the values of `innerxml` fields, `Holds` says what is between the tags of an element of the token tree. `C50_captured` for one element, `C50_read` by the invariant `Came` with "content of an element of this document", then C30 and C49. |
| C51 | false (`C51_refuted`: a prefix declared on `MPD`). `C51_meaning_partial`: the tokens found in content are the resolution of its raw tokens in the scope (`isDoc_chunks`), which does not depend on the scope for self-contained content (`scoped_selfContained`). |
| C52 | `Types.lean` models `getTypeInfo`, `structFieldInfo`, `addFieldInfo`; the specification (`promoted`, `Cand`: which fields a declaration offers, at which depth) is independent of the conflict handling. `C52_unique`, `C52_complete`, `C52_sound` by induction over declarations (`TypeInfoProps.lean`); `mpd_distinct` checks the full list of types. |
| C53 | `LaidOut` reads the output pieces from left to right, knowing only which tags are open and whether the last piece was a start or end tag; `C53_layout` by induction over items with the printer state (`Layout.lean`); `C53_written` for `writeDoc`. |
| C54 | `Grammar.lean` is a grammar of documents, independent of the decoder: a value of `Doc` is a document as spelled, `src` its text, `Ok` well-formedness, `info` its content. `GrammarLex.lean` (and `GrammarDecl.lean` for the XML and document type declarations) shows what `rawToken` does with each production, `GrammarProps.lean` composes this by induction over the content. False of the code for literal `>` in text and for tabs and line ends in attribute values (`C54_refuted`, `C54_spaces_refuted`), so `C54_wellformed_partial` excludes these (`Usual`). In the internal subset, processing instructions with quotes or brackets are misread and declared attributes and entities are ignored (`C54_subset_refuted`, `C54_defaults_refuted`, `C54_entities_refuted`); everything else there is passed over (`C54_root`). |
| C55 | `Spelling.lean`: `outline` empties the `innerxml` fields of a value; `outline_readT` shows that the outline of what is read is a function of the information content, for every type; C54 gives the rest. |
| C56 | `Prefix.lean`: `undecl` drops the declarations from the content of a document, `gist` drops what records them from a value. `gist_readT`: reading with and without declarations gives values with the same gist, if no declared prefix is the local name of an attribute of the type (`attrLocs`). False without that (`C56_refuted`), hence `C56_prefixes_partial`; `C56_manifests_partial` is the case of `MPD`. |
| C57 | `DurFloat.lean`: `secondsF` is `Seconds2DurPtrFloat64`, with `math.Round` as `roundAway` and binary64 rounding `flS`; compared with exact rational arithmetic. The way back is exact up to 2^51 + 1 microseconds, 71 years (`C57_roundtrip_partial`), and fails at the next microsecond (`C57_refuted`). |
| C58 | `Build.lean`: the constructors as assignments to zero values. `Built` is the closure of new values under assigning and appending; each step keeps the conditions of C30 (`Sound`), so `C58_built`; `C58_constructors` is the case of the library's constructors. `C58_new` lists the fields whose type's zero value does not qualify. |
| C59 | `PeriodName.lean`: `PeriodType.String` against C11. False for one of the four types (`C59_refuted`); `C59_unknown_iff` characterises the periods. |
| C60 | `Written.lean`, `WrittenProps.lean`: the specification (`mpdText`) writes the text with plain string functions; the proof follows `marshalValue` through the generated type tables and the printer. |
| C61 | `Build.lean`, `Scte.lean`: the 13 constructors of `scte35.go`. False for elements without constructor that are made with struct literals (`C61_refuted`); proved for all values whose SCTE-35 elements have canonical names, by C30 and C42. |
| C62 | `EncTok.lean`: `EncodeToken`, `isValidDirective`. `DirText` is a separate description of directives with matching brackets. `EncTokProps.lean`: which tokens are accepted, and which of them the decoder returns unchanged, exactly; the property is false for the others (`C62_refuted_…`). |
| C63 | `EncTokStream.lean`: sequences of `EncodeToken` calls and `Close`, for any state of the output buffer. `readToks` says what the tokens mean, with the namespace rules of C29. By induction over the tokens, with an invariant relating the printer, the decoder and the meaning. |
| C64 | `Machine.lean`: the tokenizer again, as in Go: `getc`, `ungetc`, `mustgetc`, line, line start, offset, saved input, each function a sequence of these calls (`Prog`). `MachineSim.lean`: it does what the functions of `XmlToken` say (simulation, function by function), so the theorems about these hold of it. Positions are an invariant of the simulation; that nothing after the line of an error matters is proved for all programs `Prog`. False for illegal characters (`C64_char_refuted`). |
| C65 | The saved input is part of the state of the machine; after a start tag no byte is put back (`reads_start`), so nothing is lost. |
| C66 | `Direct.lean`: `unmarshal` again as in Go, a program (`TProg`) of calls of `Token`, of the start of saving and of cuts from the buffer, run on the machine of C64. `DirectSim.lean`: it does what `Unmarshal.lean` says, which works on the list of all tokens with the text they leave (simulation, by induction on the fuel); the buffer holds the input since the outermost `innerxml` element. `C66_local` is proved for all programs `TProg`. |
| C67 | `ReadErr.lean`: the machine again, with a reader that fails with an error of its own where the input ends: `getc` leaves that error in `d.err`, `mustgetc` only replaces `io.EOF`. `ReadErrProps.lean`: compared with the run at the end of the input the two differ only where the end was seen; a run that has seen the failure returns it (`Live`, `Dead`: what each loop does after it; `Hungry`, `Fed`: after text `unmarshal` asks for another token). False for the check of characters in text. |
| C68 | `Steps.lean`: the calls of `getc` and `ungetc` of a run are counted; each loop takes at most 5 steps for a byte it gets on plus a constant (`Cost`, put together loop by loop), and each token makes what is left smaller unless the decoder is stuck at a raw `>`, in which case it does not return. |
| C69 | `Says.lean`: `Says io s t v`, what an element says about a value of a type, as an inductive predicate that mentions no loop, no update and no depth; which attributes and elements belong to a field is decided by the tag of that field alone. `SaysProps.lean`: by recursion on the type, reading as updates (`runOps_iff`: every field goes through its own updates) gives exactly that; a document has at most one root element (`isDoc_unique`). |
| C70 | `Timeline.lean`: `docTimes` takes the attributes that matter from the tree of the document, `Timeline` says what the three getters return in terms of the specifications of C10–C12. `valTimes_doc` (by C69's reading of documents) and `timeline` (by the parent links of C13) join decoder, binding and period arithmetic; `valTimes_back` follows the times through writing and reading (C30). Objects are allocated by any `Alloc` that is `Good` and `Timed`. |
| C71 | `DateTimeRead.lean`: `Reads` describes the accepted texts by their fields; inversion of the reader, field by field, in both directions. `C71_refuted`: a one-digit hour is accepted. |
| C72 | `Paths.lean`: `addFieldInfo` with parents, the parent stack of `marshalStruct`, `unmarshalPath` on trees. Spec: `elemsAt` (elements at a path), `Apart` (no path a prefix of another). Writing: invariant that the open elements are the parents of the last field, by induction over the fields. False with a namespace in the tag (`C72_refuted`). |
| C73 | `Cdata.lean`: `emitCDATA`, comment fields. By induction over the cuts the output is a list of CDATA sections of the grammar of C54 whose texts make up the text; text can be cut at ASCII characters (`xmlText_split`) and line ends are not cut (`eol_append`). False for characters that XML does not allow (exactly then: `C73_illegal`) and for comments that end in `-`. |
| C74 | `Sandbox.lean`: `pushEOF`, `popEOF`, `unmarshalInterface`, `Token` with the mark, in strict mode; a method is any tree of calls of `Token` and of `DecodeElement` with another method. `SandboxProps.lean`: invariant over the tree: above the mark are exactly the elements that the raw tokens read since the start have left open (`inside`, `Seg`), and undoing their namespaces gives those before the element; raw tokens that close an element are its content and its end (`inside_closed`). `C74_same` relates this `Token` to that of the other files. False without the two rules for methods. |
| C75 | `Loose.lean`: `Token`, `autoClose`, `popElement` with `nextToken`, `needClose`, `toClose` over raw tokens. Each call either passes on the first of the tokens ahead (`ahead`: pending token, pending end, input) or adds an end with the name of the top of the stack (`token_step`); nesting, order and bound follow by induction. `C75_document`: the tokens are those of a recursive specification on the open names (`repair`). False for full names with namespaces. |
| C76 | `Guard.lean`: `marshalInterface` with its mark; a method is any tree of calls of `EncodeToken` (the model of C62 and C63) and of `EncodeElement` with another method. `GuardProps.lean`: marks are invisible to the namespace code (`getPrefix_erase` … `nsStart_erase`); invariant over the tree: what is below the mark stays, marks are never removed except by the call that put them there, and the accepted steps write the same bytes without marks (`run_above`). |
| C77 | `Piped.lean`: `Token` on the replies of a reader, first translation and matching as in C26 and C27. `PipedProps.lean`: the state of the second decoder knows only default name spaces (`Two`), because the first has replaced the prefix `xmlns` by its name space; a name translated twice is the name translated once unless it has become one of the reserved prefixes (`element_again`, `attr_again`, `start_again`). |
| C78 | `TextMethods.lean`: the loop of `unmarshalTextInterface` on the tokens of the decoder; `marshalTextInterface` with the printer of C28. `TextMethodsProps.lean`: the content of an element and its own text as an inductive relation; both directions by induction over the tokens at any depth (`read_body`, `body_of`); the way back from C63. |
| C79 | `Lenient.lean`: the tokenizer of `Xml` with the settings `Strict`, `Entity`, `AutoClose` as parameters; `LenientProps.lean`. Every function accepts what its strict counterpart accepts, with the same result (`rawToken_ok`, `run_ok`); with `Strict` and no map it is the same function (`run_strict`). `C79_references`: by induction on a text made of pieces (ordinary bytes, references of every kind), whose meaning is given by a separate table. `C79_nested`: every run on bytes is a run of `Loose` on the raw tokens read (`run_seen`). False for attributes without a value. |
| C80 | `BoolProps.lean`: `C80_read` is an equivalence with two lists of words, trimmed by the same independent notion as in C41. |
| C81 | `DateCycle.lean`: `format` depends on the whole milliseconds only, so what is written is a text of `ConvertToDateTimeMS`; the float error bounds of C21 leave two candidates. Whole seconds are fixed points, hence the loss ends there. The expected exact round trip is refuted. |
| C82 | `DurText.lean`, `DurRead.lean`, `Readable.lean`: the manifest with the texts of its durations in place of the durations has the same document (`marshalV_txt`); that one is read (C30 for the type with strings). Reading the manifest goes the same way except that every text is parsed, or ends with the error of `ParseDuration` (`readT_sim`); the text of a negative duration has a sign, which no accepted text has (C04). Values that were read meet the conditions (`came_undur`). |
| C83 | `Frame.lean`: what the printer writes for items that use no namespace known to the open elements is the same with other open elements below and another counter (`encItems_over`), if no prefix had to be numbered, and items whose names keep their namespaces number none (`encItems_seq`). `Alone.lean`: the only namespace that the start tag of `MPD` can declare a prefix for is that of `xsi` (`start_key`, over all its attributes), and the items of a period use only the namespaces of the tags and the captured ones (`marshalV_avoids`). `Splice.lean`: the items of the manifest are those of the fields before, the periods and the fields after (`marshalFields_set`). `Indented.lean`: the white space of an indented text is put in between pieces that do not depend on it (`weave`, `encItems_weave`), and one level more adds one indentation to each line (`encItems_in`). |
| C84 | `Carried.lean`: what is captured in one namespace, with declarations of it, meets `NsOk` (`carried_ns`, by recursion over the type: no element with a namespace of its own has SCTE-35 elements inside, `Sch.outer`); then C49 and C42. |
| C85 | `ElementTypes.lean`: each struct type in the manifest meets what C30 needs of a type (a full table of 2114 occurrences, by evaluation in the kernel). `Elements.lean`: a value written on its own is written as if it were in a field with the name of its element (`startName_standIn`), so the proof of C30 applies (`sch_back_as`). `C85_names` compares the name with that in each of the 2113 element fields. |
| C86 | `DefaultSpace.lean`: `translate`, `popElement` and `Token` with the option (`translateD` ... `tokRunD`). The decoder with the option and the one with the declaration in force stay in step: the maps of namespaces agree after adding the declaration where there is none (`Dec.within`). For the wrapped document, the tokens of the inner document are read the same in front of an end tag (`Lexes`). |
| C87 | `Charset.lean`: `rawToken` and `Token` with a `CharsetReader`, which is any function of the name and the rest of the input. `procInst` finds the first `encoding=` (`procInst_tight`), for all names of encodings that XML allows. Where the decoder without the option does not stop with its error, both are equal (`C87_only`), so the text that the function returns is read as always. An instance is ISO-8859-1 (`C87_latin1`). |
| C88 | `EncodeElement.lean`: `marshalValue` with a start element (`encodeV`); the capacity of the copied attributes is a function that may be anything. The elements are those that `marshalV` gives for a field with the name (`C88_like_field`), so the proof of C30 applies (`sch_back_named`). |
| C89 | `Edited.lean`: no new model; `Edit` relates a value to the value after changes. What C30 asks for is kept by each change in its place (`Edit.held`: the namespaces and declarations around the place stay because no `any,attr` field is changed); `edit_assign`, `edit_push`: assignments and the append methods are such changes. |
| C90 | `Settle.lean`: no new model; `copyDoc` is reading and then writing. Values that are equal up to what reading changes (`Alike`, from `Returned` of C49) are marshalled to the same tokens (`steady_marshal`, by recursion over the schema), so the second writing gives the bytes of the first; `C90_forever_partial` iterates it. The two exceptions are refuted by running the model for four rounds on concrete documents. |
| C91 | `Shared.lean`: memory as arrays with a `bytes.Buffer` that writes in place or moves to a new array (the growth is a parameter), a token as a slice of it, `CopyToken` as a new array. `texts` is the specification with texts as values. `C91_copies`: copies are those texts at the end, by an invariant and a frame lemma; `C91_lost`: the first byte of a token that is kept without copy is overwritten by the next non-empty text (as the documentation of `Token` warns). For `NewTokenDecoder` the lists of attributes are in a heap: `C91_first` refines `Piped.run`, `C91_again` is for readers that give copies, `C91_again_refuted` is the code without them. `SharedRaw.lean` has all functions of `rawToken` once more with the buffer in memory and slices in the tokens, and `C91_rawToken` shows that they refine the model with values (also where a slice of the buffer is used after a further write, `xml.go` 1134-1139); `C91_document`: copies of the tokens of any document are its tokens at the end. Strings (names, attribute values) are values. |
| C92 | `Slices.lean`: Go slices as a place in memory and a length, `append` in place or into a new array (the growth is a parameter), a program with any number of lists. Specification: each list is what it had and what was added to it (`added`). `C92_apart` by the invariant `Apart` (no two lists share an array with room); `C92_clone`: `Clone` keeps it, with `deepcopy` (an external library, not read) taken to make a new array for each list; `C92_shared` and `C92_copy_refuted`: copies of a struct disturb each other. Slices begin at the beginning of their array; parent pointers are in C13. |
| C93 | `SharedInner.lean`: `d.saved` as a buffer in the memory of C91, fields as parts of its array (`read.go` 571-572, 619-625), `append` by the program. Specification: `fields`, with bytes as values. `C93_kept` by the invariant that fields end before the place of the next write (`Safe`); `C93_append`, `C93_append_refuted`: appending to the field of an inner element changes that of the outer one. Runs are arbitrary sequences of reading, new buffers and fields, not derived from `Direct`. |
| C94 | `Reused.lean`: `unmarshalInto`, which is `unmarshalDoc` with an old value in place of a new one. Specification: `Onto`, like `Says` of C69 but with the old value of each field. `C94_document` by induction on the type, each field by its own updates (`runOps_get`); `C94_accepts` because every update works on all values of its type or on none (`AllOrNone`). `C94_document_iff` and `C94_manifest_iff` (`ReusedOnly.lean`): also the converse, because `Onto` allows at most one value (`OntoOne`). `C94_lists`: a list is the old one followed by what a new value would get. `C94_sequence`: any number of documents read into one value. `C94_again`: a manifest with periods that is read twice into one value. |
| C95 | `Several.lean`: `decode` and `decodeAll`, calls of `Decode` on one decoder with the tokens left by the calls before. Specification: `eachAlone`, a new decoder for each document. By `after_root`: after the root element the state of the decoder is that of a new decoder on the rest of the input (start and end tags are balanced, so the stack is empty and no prefix is left). `C95_written` (`SeveralWritten.lean`): manifests written one behind the other by `Write`, each with its own indentation and header, are read back one by one (with C30); a written document ends with its root element because its last token is an end tag and `io.EOF` is only returned at the end of the input (`token_eof_iff`). `SeveralOnly.lean`, for all inputs: `Row` describes complete elements side by side in the list of tokens, and `C95_iff` says that calls succeed exactly for those (values by `readT`, the reading of an element as a tree); each takes at least two tokens, so not more calls succeed than the input is long (`C95_loop`). |
| C96 | `Moved.lean`, on the heap of C07-C14: `appendPeriod` of a period that another manifest lists. `kept_getStart`: the start depends on the periods up to this one and their parents, by induction on the depth. |
| C97 | `MovedRep.lean`, on the heap of C13 with the accessors of C18: the number that stands for the exported fields of an object is interpreted by arbitrary functions (`Fields`), `view` follows the parent pointer, and all theorems compare the answers of the six accessors. |

## Findings about the code

* `PeriodType.String` has no case for `PTRegularOrEarlyTerminated`: such periods are called `unknown`, like errors (C59).
* SCTE-35 elements that have no constructor (`Program`, `Component`, descriptors, …) and are made with struct literals are
  written with `xmlns=""`; they and everything inside, even elements made with constructors, end up in no namespace (C61).
* `EncodeToken` accepts comments that contain `--` or end in `-`, which the decoder rejects; processing instructions whose data
  begins with white space, which is lost; and directives that are empty, begin with `-` or `[`, or contain comments, which the
  decoder rejects, reads as something else, or returns with a space for the comment. `A<!-->` is accepted because the dashes of
  the comment start are also taken for its end. A processing instruction `xml` is accepted whenever the output buffer happens to
  be empty, not only as the first token (C62).
* `NewVideoRepresentation` and the like convert `int` to `uint32`: a height of -1 is written as 4294967295 (`Build.lean`).
* Durations in [0.9995 s, 1 s) are written as `PT0S`; `P106752D` parses to a negative duration (C01, C05).
* Periods whose parent links are crossed make `GetStart` recurse forever (C08).
* An id containing `$Bandwidth$` is substituted again (C17); `SetSegmentBase(0, …)` gives the range `0-4294967295` (C19);
  `SetTimescale(1)` stores the default instead of clearing (C20).
* A raw `>` in character data makes `Unmarshal` loop forever (C25).
* Tabs and line ends in attribute values are not replaced by spaces as XML 1.0 demands (C54).
* A processing instruction with an apostrophe in the internal subset (`<!DOCTYPE a [<?p it's?>]>`) makes a document unreadable; attribute defaults
  declared there are not applied, and entities declared there are errors (C54).
* Reading accepts duplicate attributes and takes prefixed attributes of foreign namespaces for own ones (C31).
  In the same way the declaration of a prefix is taken for an attribute: `<MPD xmlns:id="urn:x">` has the id `urn:x` (C56).
* Fields whose tag and Go type disagree can never be read, and tags like `xlink:href,attr` lose the prefix (C40, C46).
* `SwitchingType.Interval` lacks `,attr`.  Lists of attribute values (`*[]string`) with two entries write an attribute twice.
* A manifest without a required attribute of an embedded group is read, but writing it panics (C39).
* `AnyAttrs` captures `xmlns` declarations, so that writing declares them twice (C48).
* The bytes inside `Ext` survive, but a prefix or default namespace declared outside is lost when writing, so `<f:x/>` may end up in another namespace (C51).
* Events with text and elements accumulate white space with every indented write/read cycle (C38).
* The line number in the error for an illegal character or invalid UTF-8 is that of the end of the text or attribute value, not of the character (C64).
* When the reader fails inside a character of text, the decoder reports invalid UTF-8 and the error of the reader is lost (C67).
* With a tag `urn:n a>b` the parent `a` is written without a namespace, but only read in `urn:n` (C72).
* Unlike text, `,cdata` fields are written without replacing illegal characters; the document is then unreadable. Comment fields that end in `-` grow by a space with every write (C73).
* `pushEOF` does not stop at the mark of the method that is running: a method `UnmarshalXML` that calls `DecodeElement` after the end of its
  element can read its parent, or panics with a nil dereference. When the method of an inner element fails, its mark stays; an outer method that goes on gets
  `io.EOF` too early and counts as having read its element (C74).
* With `Strict = false` an invented end element carries the prefix where its start element has the namespace, its namespace declarations stay in force
  and on the stack, and the next end tag is then an error: `<a><b xmlns="u"></a>` fails (C75). `AutoClose` ignores case but `popElement` does not: `<p><br></BR></p>` fails.
* A `MarshalXML` that fails leaves its mark on the stack: the encoder refuses all further end elements (C76).
* Through `NewTokenDecoder` the name space `xml` becomes that of the prefix `xml`, and attributes in the name space `xmlns` become declarations (C77).
* With `Strict = false` an attribute without a value takes the byte after its name (`xml.go` 869-874 lacks the `ungetc` of the standard library): `<p nowrap></p>` is an error, in `<p nowrap>x y></p>` the text becomes an attribute, `<input x/>` is not an empty element, in `<a b href="u">` the second attribute is called `ref` (C79). `TestValuelessAttrs` does not notice, as its inputs end with the tag.
* `ConvertToDateTime` crops the float, so date-times with milliseconds can lose one (about half of them, in a numerical experiment for a second in 2020) when they go through `ConvertToSeconds` and back, and lose more when this is repeated (`…00.045Z` is `…00.039Z` after six rounds) (C81).
* A document with a duration that overflows is read as a manifest with a negative one; what is then written cannot be read: `-PT…` (C82). `time.Duration(math.MaxInt64)` survives one writing and reading, and not the second.
* An SCTE-35 element in the current namespace, inside a section in the older namespace, inside a signal in the current one, is written without a declaration and changes to the older namespace (C84): `writeStart` asks whether any ancestor has the namespace as default, not whether the default is still that one.
* `Period.WriteToString` does not write the namespace of DASH (`xmlns` is an attribute of `MPD`): a reader that knows about namespaces, such as a validator, sees a `Period` in no namespace (`eventPeriod_text`, C83). Put into a manifest the text is right.
* `WriteXML` on an element other than those of 28 types (`keptNames`; among them `Period`, `RepresentationType`, `ContentProtectionType`) writes the name of the Go type: `<AdaptationSetType>`, `<DescriptorType>`, `<SegmentTemplateType>`. Put into a manifest this is ignored when read (C85).
* `-Inf` and `NaN` are written as `-Inf` and `NaN`, of which XML Schema only knows the second (C22).
* In `<?xml version="1.0" encoding = "ISO-8859-1"?>`, with white space at the equals sign, the encoding is not noticed (`procInst` searches for `encoding=`): the document is read as UTF-8 and `CharsetReader` is not asked (C87). An XML declaration in the middle of a document is obeyed like the first.
* `EncodeElement` loses the attributes of the start element when the type has more attribute fields than attributes are given (`marshal.go` 612-615 makes a new list instead of growing the copy; the standard library has no such code): `enc.EncodeElement(adaptationSet, xml.StartElement{Name: …, Attr: [one]})` writes none. A `MarshalXML` method that adds attributes to `start` and calls `EncodeElement`, the usual way to add a namespace declaration, loses them the same way (C88).
* A manifest with an `scte214:ContentIdentifier` gets one more copy of the declaration `xmlns:scte214` on that element each time it is read and written: the declaration is captured by the `any,attr` field and also written for the name. From the second round on the element has the same attribute twice, which is not well-formed XML (C90; shown for four rounds).
* With indentation, each round of reading and writing adds white space to the text of an `Event` that has a `Signal`, because the text field of the event takes the indentation as its content (C90; shown for four rounds).
* A decoder made with `NewTokenDecoder` changes the tokens of its reader: `Token` translates the names of attributes in the list that belongs to the reader (`xml.go` 357-359; the name of the element is in a copy). A second decoder over the same tokens no longer sees the declaration `xmlns:x` and leaves the prefix in the name (C91).
* A manifest that is copied as a struct (`c := *m`) shares the array of its periods: after `m.AppendPeriod(p)` and `c.AppendPeriod(q)` the manifest `m` can have `q` in place of `p`, depending on the capacity (C92). `Clone` does not have this problem.
* Fields of type `[]byte` with the tag `innerxml` in nested elements share an array, and the inner one has room behind it (`read.go` 572 has no limit on the capacity): `b.Raw = append(b.Raw, '!')` overwrites a byte of the raw content of the element around it (C93). Fields of type `string`, as in the manifest types, are not affected.
* `xml.Unmarshal` into an `MPD` that was read before does not begin anew: all lists get the new elements after the old ones, so that every period is there twice, and attributes that are no longer in the document keep their old values (C94). `ReadFromFile`, `ReadFromString` and `MPDFromBytes` always begin with a new value.
* The comment of `Unmarshal` (`read.go` 131-137) says that an element for a pointer is read into a freshly allocated value and that a missing element is read as a zero value. The code allocates only if the pointer is nil (352-357) and does not touch fields for which there is nothing: both sentences are false for values in use (C94).
* A period that is appended to a second manifest without `Clone` changes the timeline of the first: it has one parent pointer, so that its own start and the start of all periods behind it without a start attribute are computed from the second manifest. With `m0` of two periods of 5 s and `m1` of one of 10 s, after `m1.AppendPeriod(m0.Periods[0])` the second period of `m0` starts at 15 s in place of 5 s (C96). `m0.SetParents()` repairs `m0` and breaks `m1`.
* In the same way a representation that is appended to a second adaptation set inherits from the second one, also when it is reached through the first: with MP4 in the first and WebM in the second set, `GetMimeType` and `GetMedia` of the representation in the first set return the type and the addresses of the second (C97). Nothing changes exactly if all values that the representation does not have itself are the same in both sets (C97_iff).
