{
 "C03": "full statement is false: out-of-bounds read for sizes >= 24 that are 0 or 1 mod 24",
 "C05": "full statement is false: stray bits in the last symbol are ignored; exactly which texts decode to the same bytes is proved (C05_base64_preimages)",
 "C21": "full statement is false: construction never terminates for some member name sets",
 "C24": "full statement is false when a handler constructor throws: the handler below is destroyed twice",
 "C09": "full statement is false: instants before the epoch move forward (truncation towards zero); exactly which instants survive and which move forward is proved (C09_exact_partial)",
 "C10": "full statement is false for nanosecond clocks; proved for resolutions up to 100 ns, exact characterisation for all",
 "C12": "full statement is false for clocks reaching beyond year 9999; exact characterisation proved",
 "C14": "full statement is false: 2^24 (float) and 2^53 (double) and their larger exact multiples are rejected",
 "C16": "full statement is false: the DOM reader accepts floats the streaming reader rejects; exactly when they agree is proved (C16_float_from_int_partial, C16_float_from_double_partial)",
 "C17": "full statement is false: narrowing to float rounds silently; exactly which numbers are kept, and which overflow, is proved (C17_exact_iff_partial, C17_overflow_partial)",
 "C28": "full statement is false: a class member that fails is dropped from the DOM but fails the writer; equality of texts proved whenever the writer succeeds, and equivalence for class-free types",
 "C30": "full statement is false: a class member holding a non-finite number is silently dropped (C30_member_lost). Exactly when serialization fails, exactly which members are dropped, and that nothing is dropped iff all numbers are finite: C30_fails_iff, C30_what_remains, C30_complete_iff, for every well-typed value",
 "C31": "full statement is false: a member that does not survive is left out (C30_member_lost); exactly which members are listed is proved for every well-typed value (C31_members_exact)",
 "C47": "full statement is false: keys with / or ~ or empty keys, objects first met inside a set, and objects first met in a member that is dropped for a non-finite number (C47_left_out); proved for all other values",
 "C26": "proved for all values without NUL in map keys, shared objects in sets, variants whose earlier alternatives accept, dictionaries, nested shared pointers, shared objects with a member \"$ref\"; the full statement is false for these (C26_variant_order, C26_nested_shared, C48, C57, C58, C103_lost)",
 "C46": "same restrictions as C26; the full statement is false also for variants with shared objects whose earlier alternatives are refused after reading a shared object at the same place (C46_variant_not_shared)",
 "C48": "full statement is false for every object (C48_repeated_object_lost): the set's path is recorded instead of the element's; proved for sets whose objects are not met again",
 "C57": "full statement is false: keys are cut at NUL by the DOM reader",
 "C58": "full statement is false for every dictionary: written as an object, read as an array of pairs",
 "C32": "full statement is false: the verdict of a class is overwritten by each later member (C32_masked_accepted, C32_last_member_decides); exact for documents without masked members; value described for types without shared pointers; the C32_shared theorems extend this to all types for documents without $ref members; C32_shared_value_partial describes the value there; C32_verdict and C32_shared_verdict describe exactly which documents are refused, masked members included",
 "C33": "full statement is false inside variants (C33_masked_in_variant) and for references (C33_reference_not_thrown); exact otherwise, value described for types without shared pointers; the C33_shared theorems extend this to all types for documents without $ref members; C33_shared_value_partial describes the value there; C33_verdict and C33_shared_verdict describe exactly which documents are refused, masked members included",
 "C34": "full statement is false (C34_disagree_masked, C33_reference_not_thrown); returned implies accepted proved without side conditions for types without shared pointers, equivalence for documents without masked members; the C34_shared theorems extend this to all types for documents without $ref members; C34_disagreement characterises the documents on which the variants disagree",
 "C35": "full statement is false for the root and for keys that need escaping (C35_root_path, C35_unescaped); proved for all other documents, types without shared pointers; the C35_shared theorems extend this to all types for documents without $ref members",
 "C36": "full statement is false: a masked failing alternative is chosen (C36_masked_alternative); the C36_shared theorems extend this to all types for documents without $ref members; C36_chosen gives the chosen alternative and its value for every document",
 "C38": "DOM reader: deep permutations need unmasked documents; streaming parser: proved for all documents and types without shared pointers. With shared pointers, up to the addresses: C38_parser_shared_partial (types of C42), C38_dom_shared_partial; sets of pointers excluded; validity against the generated schema: in full (C38_schema)",
 "C40": "full statement is false: DOM reader: a masked failing member keeps the old value (C40_masked_keeps); streaming parser: containers are appended to, absent members kept (C40_parser_appends)",
 "C56": "full statement is false: for classes the DOM reader takes the first value, the parser the last (C56_readers_differ); what each reader does is proved, and agreement for maps of leaves (C56_map_partial) and for all documents without repeated keys (C61)",
 "C37": "DOM reader: deserialize ignores them; parser: never accepted",
 "C39": "both readers",
 "C25": "full statement is false: a document nested 64 levels deep makes the boolean parse throw std::out_of_range; proved for all documents within the room of the handler stack",
 "C42": "full statement is false for named enumerations inside other types, for vectors/sets of characters and pointers to numbers, and for documents exceeding the handler stack; proved for all other types (C42_surroundings for all types)",
 "C44": "full statement is false: no non-empty container, tuple or object with a named enumeration is ever accepted; proved at top level",
 "C45": "full statement is false for characters, enumerations without names and pointers to numbers; proved for all other element types",
 "C55": "both readers; parser: order independence for element types that the parser supports in sets",
 "C27": "proved for all streamable types and values whose shared objects are used once, into empty targets, within the depth of the handler stack; the full statement is false for dictionaries, types with non-empty default contents, repeated shared objects, deep values, named enumerations and vectors of characters (C27_dictionary, C27_default_contents, C27_shared_twice, C27_depth, C44, C45)",
 "C61": "proved for documents whose objects have the members of their class once each, integers in floating-point members below 2^digits, map keys without NUL, empty targets; types with shared pointers: C61_shared_partial, documents without references, equal values but for the kind of pointer, separate objects by C84; outside of these the readers differ (C61_unknown_key, C61_missing_member, C61_big_integer, C61_nul_key, C61_previous_contents, C56_readers_differ)",
 "C51": "full statement is false for variants with overlapping alternatives, repeated shared objects, dictionaries, sets of pointers and enumerations (C51_variant_overlap, C51_shared, C51_dict, C51_set, C54_enum_rejects); proved for all other types, for values without repeated shared objects; C51_schema_text_partial states it for the schema that schema_to_string writes",
 "C52": "for the class itself and for all entries of definitions; C52_valid says what it means for documents",
 "C53": "class names without / and ~ (typeid names), different for different classes",
 "C54": "partial: the full statement is false for every enumeration: the list of values is always empty (C54_enum_rejects)",
 "C62": "returns exactly for types whose classes are not recursive; never for recursive ones (C62_recursive)",
 "C49": "Refuted for cyclic graphs: if an object on a cycle is reachable, neither serializer returns, whatever the depth of recursion (C49_cyclic; witness with two objects in C49_not_terminating). Proved for graphs in a finite heap without reachable cycles: both serializers return and agree. Missing from the property: cyclic graphs. That both return without cycles holds with infinities and NaNs as well (C49_returns_partial); C49_cyclic is about graphs with finite numbers only, since a number that is not finite can end the recursion.",
 "C59": "Refuted: everything after a NUL character in the string is ignored by all functions (C59_rest_ignored, witness C59_not_whole). Proved for strings without NUL. Assumes of RapidJSON that it accepts exactly the JSON texts of RFC 8259 (structure Reader, satisfiable: someReader).",
 "C60": "Refuted for the overload for std::string&&, whose document refers to the buffer of its argument: readable afterwards iff there are no strings and no members (C60_move_readable_iff, C60_move_dangles). Proved for the overload for const std::string&.",
 "C63": "For typed values without infinities and NaNs. Faithful says that Writer::Double writes a number as a text that is read as the same number; it is a condition on the numbers in the document. RapidJSON's Writer is modelled from its documentation.",
 "C64": "Refuted: for elements that are characters, enumerations without names or pointers to numbers, and for enumerations without names and a number with a fraction, the message is 'expected JSON token: number...; got: number' (C64_contradictory_message, C64_expected_never_accepted). Proved: every refusal has a non-empty message, which is the one thrown; an unexpected token is reported with the tokens expected; for all other handlers these are acceptable and the message never names an expected token as found. Offset and texts of RapidJSON are parameters.",
 "C65": "partial: Integers: exact (C65_int_exact). Floating-point numbers: refuted, strtod reads behind the view and accepts other texts (C65_float_reads_beyond, C65_float_accepts_others); exactly which views are accepted is proved against the grammar of C11 7.22.1.3 (C65_float_exact_partial, C65_float_terminated_partial). std::from_chars and std::strtod are modelled after the standard.",
 "C66": "full statement is false: the DOM reader rounds integers twice when the target is float (C66_double_rounding); proved for the streaming parser, and for the DOM reader; exactly which integers are stored wrongly is proved (C66_dom_integer_exact_partial), and how far off they are (C66_dom_integer_error_partial)",
 "C67": "full statement is false: 1.0 is a valid integer that is refused (C67_whole_number), format and contentEncoding are not assertions (C67_format), numbers beyond the range of a floating-point type (C67_parser_range); proved for all other documents, for the parser with the restrictions of C42 on types",
 "C68": "full statement is false: a reference to an object of another type is reinterpreted (C68_type_confusion), even in documents that the library wrote (C68_written_confused, C68_variant_confused); references that are no strings or no JSON pointers (C68_reference_not_string, C68_reference_no_pointer); time stamps that overflow the clock (C68_clock); proved for everything else, for the parser without further hypotheses if the clock counts 100 ns or more",
 "C69": "full statement is false: a missing pointer member that is masked by a later member (C69_masked_null) or that the parser does not miss (C69_parser_null) stays null, and writing it is undefined; a float overflows to infinity, which is not written (C69_overflow_unwritable); proved for documents without these defects, with shared pointers (C69_shared_written_partial) for documents whose references are in order",
 "C70": "full statement is false: alternatives of a variant that have the same shape (C70_variant_changes), dictionaries (C70_dictionary), enumerations with a name that occurs twice (C70_enum_changes); proved for types without shared pointers otherwise, under the conditions of C69; with shared pointers (C70_shared_partial) for documents whose references are in order",
 "C71": "types in which alternatives of variants before the last have shared pointers only at their top, and no shared pointers to shared pointers; no masked members (only inside variants for the throwing variant), no overflow of the clock; dangling references are refused by the boolean variant (C71_dangling_refused_partial) unless masked (C71_dangling_masked), the throwing variant does not report them (C33_reference_not_thrown) and drops what comes after them (C71_dangling_truncates); outside of this C46_variant_not_shared, C68_variant_confused, C32_masked_accepted",
 "C72": "first half full for the DOM reader (C72_added_bool, C72_added_throw); parser for the types it can read (C42); new members that are required break old documents (C72_required_added). Second half is false with variants (C72_older_variant), references into new members (C72_older_reference), masked members in the boolean variant (C72_older_masked) and for the parser, which refuses unknown members (C72_older_parser); proved otherwise (C72_older_partial)",
 "C73": "full statement is false: the conversion to rapidjson::SizeType takes lengths modulo 2^32, and both serializers report success (C73_long_string, C73_long_bytes, C73_long_keys); exact criterion proved (C73_document_partial, C73_text_partial)",
 "C74": "proved for types without variants, and for variants with at most one alternative that is an array and one that is an object (C74_linear_partial), for documents without references; quadratic with them (C74_references_partial), which can happen (C74_references_quadratic); exponential in the depth with other variants (C74_bound), which can happen even for documents that the library has written (C74_exponential)",
 "C75": "violated: a persist function declared auto returns a copy of the archive, so failures in members of the derived class are lost. The boolean reader accepts documents without them (C75_missing_accepted), variants of derived classes are read back as another alternative, also by the throwing reader (C75_wrong_alternative), and write_to_string reports success with a text that is no JSON (C75_broken_text). Proved: without derived classes nothing changes (C75_flat); the throwing reader is right for documents without references and types without variants of derived classes, and what it returns is accepted by the boolean reader with the same value (C75_throw_partial, C75_bool_partial); the writer succeeds with the text of a document exactly if the class with all members is written, with the same text (C75_write_exact)",
 "C76": "the classes of schema.hpp are a program for the writer model, with the copied archive of JsonSchemaDocument (C75); schemaToString builds and writes the objects",
 "C77": "types without shared pointers, and with them, also between unique and shared pointers: C77_shared_throw_partial, C77_shared_files_partial; documents without masked members (C32), for the throwing variant without masked members inside variants (C33); parser for the types it can read (C42). Files written by the old program: C77_files_partial, float becomes double exactly. Not among the changes, with counterexamples: an alternative before the last one of a variant (C77_alternative_widened), alternatives added in front (C77_alternative_in_front), 64-bit integers to double (C77_int64_double), a value to a vector (C77_to_vector)",
 "C78": "violated: a value that is not declared is written as an empty string without an error, which no reader accepts (C78_undeclared); the readers pass the characters of the string without its length, so a name followed by a NUL character and anything else is accepted (C78_nul_accepted). Proved: declared values round trip (C78_roundtrip_partial), exactly what is accepted (C78_read_exact), and that for strings without NUL the behaviour is that of the converter of enum_utility.hpp (C78_like_converter), which the other theorems cover. Boost.Describe is modelled from its documentation",
 "C79": "violated: strings that are not UTF-8 are written without an error (C79_invalid_written), and texts that are not UTF-8 are accepted (C79_invalid_read), since neither the library nor RapidJSON with its default flags validates; the text of a time after the year 9999 depends on memory that was not written (C79_late_time). Proved: a text is UTF-8 exactly if all strings and keys of its document are (C79_text_iff, C79_written_iff), so texts are UTF-8 if the strings of the value and the names of the program are (C79_written_partial)",
 "C80": "exact count (C80_nodes_exact), with the family where it matters (C80_sharing: 3n+1 nodes against 2^(n+1)-1 with copies). The number of characters is not linear, because every reference spells the whole path (C80_paths_quadratic)",
 "C81": "which report is made is exact, in both directions and unique (C81_first_failure, C81_shared_first_failure, C81_one_first_failure). The sentences are true of the node and of the type read there (C81_text_true_partial), where `expected: integer` means an integer in the range of `int`: 3000000000 is answered by it (C81_integer_expected). The path is in the text unless what is quoted from the document has a slash or NUL (C81_path_in_text_partial; counterexamples C81_ambiguous, C81_cut)",
 "C82": "violated in the strong form: parse is not atomic (C82_not_atomic), the object of a pointer is replaced already by an empty text (C82_pointer_lost, C82_pointer_replaced), bytes are overwritten by those in front of the error and zeros (C82_bytes_lost, C85). Proved, for documents of limited depth and the types that the parser can read (C42): exactly what is left (C82_left_exact_partial), that the specification covers every failure (C82_left_total_partial; needs Calm: no number or string whose conversion throws), and what is kept (C82_kept_partial, C82_other_keys_partial, C82_other_members_partial, C82_set_unchanged_partial); when the handler stack is full, new elements and entries stay (C82_full_vector, C82_full_map)",
 "C83": "violated for sets of shared pointers: std::set orders pointers by address, so the same objects are written in another order (C83_set_order). Proved otherwise: writing (C83_document_partial, C83_text_partial: renaming keeps the order of elements of sets, as it does where no pointers are in sets), writing again what was read (C83_again_partial, restrictions of C26), reading (C83_read, C83_throw, C83_parse_partial; comparison of set elements and default values must not look at addresses that the renaming changes, Env.Blind; parser: types of C42)",
 "C84": "violated where a failed member is masked by a later one, and after rejected documents: std::shared_ptr is assigned before reading, so it holds an object read in part, std::unique_ptr keeps its old value (C84_masked, C84_rejected). Proved otherwise: parser on all documents (C84_parse_partial, types of C42), throwing reader with exceptions (C84_throw_partial), verdicts and accepted values of the boolean reader (C84_bool_partial); sets of pointers excluded (Env.Bare). Separate objects: C84_own (also for rejected documents, any types), C84_own_throw, C84_own_parse_partial (all documents, repeated keys included; maps in the target sorted); with references pointers share (C84_referenced)",
 "C85": "partial: violated in its last sentence: a later member masks the failure, deserialize returns true and the object has zeros in place of its bytes (C85_masked, see C32). Proved: exactly what is left, for every text (C85_output, C85_only_good_groups), through deserialize (C85_dom) and through the parser (C82_bytes_lost)",
 "C86": "violated for times in the same second (C86_times), alternatives of a variant with the same documents (C86_alternatives), infinities and NaNs in members, which are left out (C86_dropped), and keys with a slash: a reference such as /x/y/z stands for two objects (C86_paths). Proved, in both directions, for the values that survive the round trip (C26): C86_document_partial, C86_text_partial",
 "C87": "C87_document, C87_text; where objects are shared the documents differ, since a reference is written: C87_shared",
 "C88": "partial: refuted for std::string_view and char[N] (C88_dangles); C88_readable_iff is the exact condition for values of their types with finite numbers, C88_outlives_partial covers all values, C88_same_document shows that the difference cannot be seen while the value exists",
 "C89": "partial: the overflow test of RapidJSON misses indices such as 6000000000 in arrays with more than 429496729 elements (C89_overflow; C89_found_partial needs smaller arrays); names with / or ~ are not escaped when a reference is written (C89_unescaped; C89_written_partial needs other names). C89_tokens holds of every text",
 "C90": "partial: refuted for years outside 0 to 9999 (C90_year_10000), which only clocks coarser than nanoseconds have; C90_date_time_iff and C90_date_iff are exact. Date-times with fraction, offset, small letters or leap second are refused by the readers (C90_read_iff, exact)",
 "C91": "for all types that can be parsed (C91_every_program); the type `dict` of the model, which the single theorems exclude (`Ty.dictless`), is what the writers make of vectors of pairs with strings, and never the choice of the parser (resolve_dictless)",
 "C92": "full statement is false: an alternative of a variant that is refused leaves its shared objects in the table of references, where a reference finds them (C92_refused_alternative), and the DOM reader reads a member of the document once for each member of the class with this name (C92_same_names). Proved for all documents without references; with references for variants with at most one alternative of each kind, and with a factor for each level otherwise (C92_objects_bound); parser for all types. No initialisers that hold elements or text (`Env.Slim`, `Env.Vacant`)",
 "C93": "full statement is false: of an object that is the value of two keys, the order decides which entry holds it and which holds the reference (C93_shared). Documents proved for values that reach no object twice; verdict, number of nodes and reading without this condition; the value read back under the conditions of C26. An order is a function of the place of the map and of its keys",
 "C94": "full statement is false: for a class that contains itself the depth grows with the input, three calls per level in the example, without limit in the code (C94_recursive). For all other types the nesting of the type bounds it (C94_types_partial); for all types the levels of the value and of the document (C94_value, C94_document, C94_nesting). The depth of what is read is exact without variants and references (C94_exact_partial). RapidJSON's own recursion while it parses a text is not modelled",
 "C95": "full statement is false: a change inside of a variant may select another alternative (C95_variant), and a change of a key that is there twice is not seen (C95_duplicate). Proved for places under sequences, arrays, tuples, maps, dictionaries, sets, members and unique pointers, for writing also under variants and objects that are shared but used once, and beside shared objects (C95_read_partial, C95_write_partial); the same for the streaming writer (C95_text_partial) and for the streaming parser where both readers agree (C95_parse_partial). Missing: reading of shared objects (places inside of shared objects that are used several times: C108 for writing)",
 "C96": "full statement is false for enumerations with names inside of other types (C96_enum_late) and for types that are nested deeper than the stack of handlers (C96_deep_late): the parser reads on although no document can be accepted. That the parser never stops too early holds for all types (C96_not_early). Proved both ways for types without such enumerations and without variants as long as there is room on the handler stack (C96_continues_partial, C96_refused_partial)",
 "C97": "proved for all well-typed values with non-null pointers: success (C97_success, C97_writer_success) and failure (C97_failure, C97_writer). C97_overwritten shows that the destination of a failed serialize_to_document is not as it was, in contrast to write_to_string with a std::string (C29)",
 "C98": "proved for every document: C98_exact (types without shared pointers), C98_shared (all types, documents without references; the addresses of shared objects are not specified), C98_shaped (always a value of the type), C98_member (members are independent). Calm: time stamps out of the range of the clock are undefined behaviour. C98_not_atomic shows that the stronger property fails: the variable changes although false is returned",
 "C99": "bool parse: full (C99_parse). Deserialize: documents without a masked bad member, also with references (C99_shared_bool_partial, C99_shared_throw_partial; no shared pointers in alternatives of variants before the last, none to shared pointers); T parse: documents that have every member and no containers outside of pointers and optional members. The unchanged code violates the rest: C99_bool_uninitialised (an optional member whose value is refused, masked by a later good member), C99_parse_uninitialised (a required member that is not in the text)",
 "C100": "proved for all values whose years are in 0 to 9999. The unchanged code violates the rest: C100_time_iff (exactly these years), C100_leak (a document)",
 "C101": "violated: gmtime returns an object that all threads share; for any two time stamps a thread may obtain the text of the other thread's (C101_other_text), or a mixture of both, such as 2000-02-31, which no reader accepts (C101_no_such_day). Exactly which texts two threads may obtain: C101_two_iff; a bound for all schedules: C101_mixture. Proved: schedules in which no thread calls gmtime while another one reads its result (C101_exclusive_partial, C101_alone, C101_document_partial). Data races are undefined in C++; the model gives them the most favourable meaning",
 "C102": "violated: while the table of a class with three or more members is still filled with zeros, every key but the name of its first member is refused (C102_key, C102_refused, C102_violated). Proved for all states of the initialisation: the outcome is that of main or a refusal, never a wrong value or undefined behaviour (C102_never_wrong, C102_throw); exactly which documents are accepted (C102_accepted_iff); documents whose classes have their tables (C102_same_partial)",
 "C103": "violated: a shared map with the key \"$ref\" is never read back (C103_lost, C103_one_map); it may be read, with success reported, as another object of the document (C103_aliased), or with undefined behaviour as an object of another type (C103_confused); the parser reads the reference to a repeated map as a map (C103_reference_read). Proved to be read back: maps that are not shared (C103_not_shared_partial), maps without this key (C103_one_map), one shared map in the parser (C103_parser_map); for all other types C26 and C27",
 "C104": "violated: objects are known again by their address, which an object shares with its first member and with its base; for any two objects of different types at one address the second is lost and reading is undefined (C104_confused). Proved for all pairs of objects at different addresses or of one type, when the objects have no shared parts (C104_exact_partial; with shared parts, under a heap with one type for each address, C26 and C46)",
 "C105": "violated: binary data is written as an array of numbers unless the header for bytes is included, a vector of pairs with a string as an array unless the header for maps is (C105_bytes, C105_dictionary); C105_exact says that these are the only two cases, C105_same_document_partial is the property for all programs without them",
 "C106": "violated: the types that each operation supports differ (C106_not_supported); C106_supported_iff says which types are supported, the other theorems by which forms the operations differ, and that vectors of pairs with a string are the only types that are written as one thing and read as another. Classes are in a table: their members are instantiated when the class is, which C105_same_document_partial covers",
 "C107": "violated: a pointer to characters is written as a number, an array longer than its text with NULs, an array without NUL loses its last character (C107_not_text); C107_exact_partial and C107_text_exact_partial are equivalences for all holders. C107_types: inside any type, and as keys, string views are written as strings are. Arrays of length zero are not C++",
 "C108": "contents without shared objects of their own; the value may have other shared objects and, in C108_document, members that fail",
 "C109": "violated: the DOM serializer needs 12*2^n-7 calls for a graph of size 5n+4 (C109_exponential), and paths make a chain of n shared objects cost about n*n/2 (C109_chain, C109_not_linear); proved: exactly one call per value and pointer for values with finite numbers, at most one for texts whatever the value, with paths at most 1+2*depth times the size; not counted: search in std::map, RapidJSON, bytes of strings",
 "C110": "violated: make_schema generates the schema of a class before looking whether there is a definition, so n+1 classes with two members each take 2^(n+1)-1 calls (C110_exponential); proved: exactly one call for each place of the unfolded type, and linear when no class is at two places; not counted: map lookups, copies of schemas",
 "C111": "violated by the unchanged code for unknown members, repeated elements of sets, variants with overlapping alternatives, references, missing members (parser), enumerations (C54): negations with witnesses; proved for the other types and documents, and with C67 an equivalence",
 "C112": "an equivalence for all documents, both verdicts; the specification `Meets` speaks of types and documents only",
 "C113": "proved through C112 for the changes of `Loosens`; false for new alternatives that are read from the same kind of JSON values and for removed members, although the reader minds neither: negations with witnesses",
 "C114": "violated by the unchanged code for pointers to classes, which are described in place again and again (C114_exponential); proved without them (C114_linear_partial), and for all types relative to the number of calls of C110 (C114_calls_partial)",
 "C115": "the condition is needed: a part that refers to an object of an earlier part is written as a reference (C115_common)",
 "C116": "under the conditions of C26, which are needed: paths can express the places, earlier alternatives of variants reject what is written for later ones; contents without shared objects of their own",
 "C117": "without enumerations and references, for which it is false (C117_enumeration, C117_reference); false of the streaming parser (C117_parser)",
 "C118": "for tuples, classes and unique pointers only if the parts of a new object are like new objects of their types; false otherwise (C118_initial), and false with shared pointers (C118_shared)",
 "C119": "of the streaming parser; false of the DOM reader (C119_dom)",
 "C120": "for documents that are not numbers; false for numbers (C120_number); on the contract of the RapidJSON reader (Reader)",
 "C121": "for types without integers; with the parser for integers of no more bits than the floating-point types have (53 or 24). Violated otherwise: 1.0 is not read into an int, 2^53 is parsed into a double only with a decimal point (C121_integers), a variant reads different alternatives (C121_variant), the sign of zero (C121_zero); validity against the generated schema: in full, for all types and the sign of zero (C121_schema)",
 "C122": "the verdicts and errors for types without shared pointers and the validity in full; with shared pointers on documents without references; the value for the outermost variant. Violated by the value where a document fits several alternatives (C122_overlap)",
 "C123": "for types without shared pointers in full, with shared pointers on documents without references. Violated with references, which only shared pointers follow (C123_references); validity against the generated schema for the exchanges of `look` (C123_schema), violated for sets and vectors (C123_schema_set)",
 "C124": "in full for tables without repetitions; with repetitions the order matters (C124_repeated)",
 "C125": "in full; readers of documents for different classes that stay different, because a reference to an object of another class is undefined behaviour even if its members are the same (C125_merged)",
 "C126": "for the throwing reader and programs without classes inside variants, and for the reader without exceptions on documents that the throwing one accepts; with shared pointers on documents without references; for the streaming parser and the types of C42 with room on the handler stack. the generated schemas have the same valid documents for all types (C126_schema, C126_schema_exists), though not the same text (C126_schema_text). Violated by the reader without exceptions (C126_bool) and inside variants (C126_variant), because each member overwrites the result; the order also decides which of two errors is thrown (C126_which)"
}
