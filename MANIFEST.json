{"claims": [
 {"property": "C01", "status": "proved", "theorems": ["Verif.Props.C01_base64_roundtrip"], "note": ""},
 {"property": "C02", "status": "proved", "theorems": ["Verif.Props.C02_base64_rfc4648", "Verif.Props.C02_base64_length", "Verif.Props.C02_base64_endian"], "note": ""},
 {"property": "C03", "status": "partial", "theorems": ["Verif.Props.C03_base64_overread", "Verif.Props.C03_base64_reads_in_bounds_partial", "Verif.Props.C03_base64_overread_at_most_two_partial", "Verif.Props.C03_base64_table_in_bounds"], "note": "full statement is false: out-of-bounds read for sizes >= 24 that are 0 or 1 mod 24"},
 {"property": "C04", "status": "proved", "theorems": ["Verif.Props.C04_base64_decode_spec", "Verif.Props.C04_base64_decode_accepts"], "note": ""},
 {"property": "C05", "status": "partial", "theorems": ["Verif.Props.C05_base64_not_injective", "Verif.Props.C05_base64_canonical_partial", "Verif.Props.C05_base64_preimages", "Verif.Props.C05_base64_reencode"], "note": "full statement is false: stray bits in the last symbol are ignored; exactly which texts decode to the same bytes is proved (C05_base64_preimages)"},
 {"property": "C06", "status": "proved", "theorems": ["Verif.Props.C06_timestamp_roundtrip"], "note": ""},
 {"property": "C07", "status": "proved", "theorems": ["Verif.Props.C07_calendar_counts_days", "Verif.Props.C07_parse_accepts_exactly"], "note": ""},
 {"property": "C08", "status": "proved", "theorems": ["Verif.Props.C08_texts_sort_chronologically"], "note": ""},
 {"property": "C09", "status": "partial", "theorems": ["Verif.Props.C09_subsecond_partial", "Verif.Props.C09_moves_forward", "Verif.Props.C09_exact_partial"], "note": "full statement is false: instants before the epoch move forward (truncation towards zero); exactly which instants survive and which move forward is proved (C09_exact_partial)"},
 {"property": "C10", "status": "partial", "theorems": ["Verif.Props.C10_no_overflow_partial", "Verif.Props.C10_overflow_nanoseconds", "Verif.Props.C10_overflow_iff"], "note": "full statement is false for nanosecond clocks; proved for resolutions up to 100 ns, exact characterisation for all"},
 {"property": "C11", "status": "proved", "theorems": ["Verif.Props.C11_date_accepts_exactly", "Verif.Props.C11_date_roundtrip"], "note": ""},
 {"property": "C12", "status": "partial", "theorems": ["Verif.Props.C12_written_parses_iff", "Verif.Props.C12_nanosecond_partial", "Verif.Props.C12_year_10000"], "note": "full statement is false for clocks reaching beyond year 9999; exact characterisation proved"},
 {"property": "C13", "status": "proved", "theorems": ["Verif.Props.C13_parse_int_exact"], "note": ""},
 {"property": "C14", "status": "partial", "theorems": ["Verif.Props.C14_int_to_float_partial", "Verif.Props.C14_power_rejected"], "note": "full statement is false: 2^24 (float) and 2^53 (double) and their larger exact multiples are rejected"},
 {"property": "C15", "status": "proved", "theorems": ["Verif.Props.C15_deserialize_int_exact"], "note": ""},
 {"property": "C16", "status": "partial", "theorems": ["Verif.Props.C16_readers_agree_int_partial", "Verif.Props.C16_readers_agree_float_partial", "Verif.Props.C16_dom_accepts_more", "Verif.Props.C16_float_from_int_partial", "Verif.Props.C16_float_from_double_partial"], "note": "full statement is false: the DOM reader accepts floats the streaming reader rejects; exactly when they agree is proved (C16_float_from_int_partial, C16_float_from_double_partial)"},
 {"property": "C17", "status": "partial", "theorems": ["Verif.Props.C17_float_exact_partial", "Verif.Props.C17_float_values_exact_partial", "Verif.Props.C17_silent_loss", "Verif.Props.C17_exact_iff_partial", "Verif.Props.C17_overflow_partial"], "note": "full statement is false: narrowing to float rounds silently; exactly which numbers are kept, and which overflow, is proved (C17_exact_iff_partial, C17_overflow_partial)"},
 {"property": "C18", "status": "proved", "theorems": ["Verif.Props.C18_read_first", "Verif.Props.C18_write_first", "Verif.Props.C18_enum_roundtrip", "Verif.Props.C18_name_roundtrip", "Verif.Props.C18_same_name_loses"], "note": ""},
 {"property": "C19", "status": "proved", "theorems": ["Verif.Props.C19_lookup_exact", "Verif.Props.C19_built_names_distinct"], "note": ""},
 {"property": "C20", "status": "proved", "theorems": ["Verif.Props.C20_lookup_in_bounds", "Verif.Props.C20_hash_dispatch_exact"], "note": ""},
 {"property": "C21", "status": "partial", "theorems": ["Verif.Props.C21_build_never_throws", "Verif.Props.C21_build_diverges", "Verif.Props.C21_rgba_diverges", "Verif.Props.C21_power_of_two_decides_partial", "Verif.Props.C21_red_green_blue_alpha_diverges", "Verif.Props.C21_builds_without_collisions_partial"], "note": "full statement is false: construction never terminates for some member name sets"},
 {"property": "C22", "status": "proved", "theorems": ["Verif.Props.C22_dispatch_exact"], "note": ""},
 {"property": "C23", "status": "proved", "theorems": ["Verif.Props.C23_stack_refines_list", "Verif.Props.C23_live_objects_disjoint_in_bounds", "Verif.Props.C23_live_objects_aligned"], "note": ""},
 {"property": "C24", "status": "partial", "theorems": ["Verif.Props.C24_destroyed_exactly_once_partial", "Verif.Props.C24_throwing_constructor_double_destroy", "Verif.Props.C24_reverse_order"], "note": "full statement is false when a handler constructor throws: the handler below is destroyed twice"},
 {"property": "C25", "status": "partial", "theorems": ["Verif.Props.C25_no_exception_partial", "Verif.Props.C25_deep_document_throws", "Verif.Props.C25_big_handlers_throw"], "note": "full statement is false: a document nested 64 levels deep makes the boolean parse throw std::out_of_range; proved for all documents within the room of the handler stack"},
 {"property": "C26", "status": "partial", "theorems": ["Verif.Props.C26_dom_roundtrip_partial", "Verif.Props.C26_unshared_roundtrip_partial", "Verif.Props.C26_variant_order", "Verif.Props.C26_nested_shared", "Verif.Props.C26_string_roundtrip_partial"], "note": "proved for all values without NUL in map keys, shared objects in sets, variants whose earlier alternatives accept, dictionaries, nested shared pointers, shared objects with a member \"$ref\"; the full statement is false for these (C26_variant_order, C26_nested_shared, C48, C57, C58, C103_lost)"},
 {"property": "C27", "status": "partial", "theorems": ["Verif.Props.C27_text_roundtrip_partial", "Verif.Props.C27_unshared_roundtrip_partial", "Verif.Props.C27_dictionary", "Verif.Props.C27_default_contents", "Verif.Props.C27_shared_twice", "Verif.Props.C27_depth", "Verif.Props.C27_string_roundtrip_partial"], "note": "proved for all streamable types and values whose shared objects are used once, into empty targets, within the depth of the handler stack; the full statement is false for dictionaries, types with non-empty default contents, repeated shared objects, deep values, named enumerations and vectors of characters (C27_dictionary, C27_default_contents, C27_shared_twice, C27_depth, C44, C45)"},
 {"property": "C28", "status": "partial", "theorems": ["Verif.Props.C28_same_text_partial", "Verif.Props.C28_class_free", "Verif.Props.C28_nan_member"], "note": "full statement is false: a class member that fails is dropped from the DOM but fails the writer; equality of texts proved whenever the writer succeeds, and equivalence for class-free types"},
 {"property": "C29", "status": "proved", "theorems": ["Verif.Props.C29_write_succeeds_iff_finite"], "note": ""},
 {"property": "C30", "status": "partial", "theorems": ["Verif.Props.C30_fails_iff", "Verif.Props.C30_what_remains", "Verif.Props.C30_complete_iff", "Verif.Props.C30_member_lost", "Verif.Props.C30_nothing_lost_partial"], "note": "full statement is false: a class member holding a non-finite number is silently dropped (C30_member_lost). Exactly when serialization fails, exactly which members are dropped, and that nothing is dropped iff all numbers are finite: C30_fails_iff, C30_what_remains, C30_complete_iff, for every well-typed value"},
 {"property": "C31", "status": "partial", "theorems": ["Verif.Props.C31_members_exact", "Verif.Props.C31_members_in_order_partial", "Verif.Props.C31_never_extra"], "note": "full statement is false: a member that does not survive is left out (C30_member_lost); exactly which members are listed is proved for every well-typed value (C31_members_exact)"},
 {"property": "C32", "status": "partial", "theorems": ["Verif.Props.C32_conforming_accepted", "Verif.Props.C32_last_member_decides", "Verif.Props.C32_masked_accepted", "Verif.Props.C32_exact_partial", "Verif.Props.C32_verdict", "Verif.Props.C32_shared_verdict", "Verif.Props.C32_shared_conforming_accepted", "Verif.Props.C32_shared_partial", "Verif.Props.C32_shared_value_partial"], "note": "full statement is false: the verdict of a class is overwritten by each later member (C32_masked_accepted, C32_last_member_decides); exact for documents without masked members; value described for types without shared pointers; the C32_shared theorems extend this to all types for documents without $ref members; C32_shared_value_partial describes the value there; C32_verdict and C32_shared_verdict describe exactly which documents are refused, masked members included"},
 {"property": "C33", "status": "partial", "theorems": ["Verif.Props.C33_throws_only_if_bad", "Verif.Props.C33_exact_partial", "Verif.Props.C33_masked_in_variant", "Verif.Props.C33_reference_not_thrown", "Verif.Props.C33_verdict", "Verif.Props.C33_shared_verdict", "Verif.Props.C33_shared_throws_only_if_bad", "Verif.Props.C33_shared_partial", "Verif.Props.C33_shared_value_partial"], "note": "full statement is false inside variants (C33_masked_in_variant) and for references (C33_reference_not_thrown); exact otherwise, value described for types without shared pointers; the C33_shared theorems extend this to all types for documents without $ref members; C33_shared_value_partial describes the value there; C33_verdict and C33_shared_verdict describe exactly which documents are refused, masked members included"},
 {"property": "C34", "status": "partial", "theorems": ["Verif.Props.C34_returned_accepted", "Verif.Props.C34_agree_partial", "Verif.Props.C34_disagree_masked", "Verif.Props.C34_disagreement", "Verif.Props.C34_shared_returned_accepted", "Verif.Props.C34_shared_agree_partial"], "note": "full statement is false (C34_disagree_masked, C33_reference_not_thrown); returned implies accepted proved without side conditions for types without shared pointers, equivalence for documents without masked members; the C34_shared theorems extend this to all types for documents without $ref members; C34_disagreement characterises the documents on which the variants disagree"},
 {"property": "C35", "status": "partial", "theorems": ["Verif.Props.C35_path_partial", "Verif.Props.C35_root_path", "Verif.Props.C35_unescaped", "Verif.Props.C35_shared_path_partial"], "note": "full statement is false for the root and for keys that need escaping (C35_root_path, C35_unescaped); proved for all other documents, types without shared pointers; the C35_shared theorems extend this to all types for documents without $ref members"},
 {"property": "C36", "status": "partial", "theorems": ["Verif.Props.C36_first_alternative_partial", "Verif.Props.C36_masked_alternative", "Verif.Props.C36_chosen", "Verif.Props.C36_shared_first_partial"], "note": "full statement is false: a masked failing alternative is chosen (C36_masked_alternative); the C36_shared theorems extend this to all types for documents without $ref members; C36_chosen gives the chosen alternative and its value for every document"},
 {"property": "C37", "status": "proved", "theorems": ["Verif.Props.C37_parser_unknown_rejected", "Verif.Props.C37_dom_ignores_unknown"], "note": "DOM reader: deserialize ignores them; parser: never accepted"},
 {"property": "C38", "status": "partial", "theorems": ["Verif.Props.C38_parser_order", "Verif.Props.C38_dom_order", "Verif.Props.C38_dom_deep_partial", "Verif.Props.C38_schema", "Verif.Props.C38_parser_shared_partial", "Verif.Props.C38_dom_shared_partial"], "note": "DOM reader: deep permutations need unmasked documents; streaming parser: proved for all documents and types without shared pointers. With shared pointers, up to the addresses: C38_parser_shared_partial (types of C42), C38_dom_shared_partial; sets of pointers excluded; validity against the generated schema: in full (C38_schema)"},
 {"property": "C39", "status": "proved", "theorems": ["Verif.Props.C39_parser_exact_length", "Verif.Props.C39_dom_exact_length", "Verif.Props.C39_dom_other_length"], "note": "both readers"},
 {"property": "C40", "status": "partial", "theorems": ["Verif.Props.C40_parser_appends", "Verif.Props.C40_parser_keeps_elements", "Verif.Props.C40_parser_target_partial", "Verif.Props.C40_dom_target_partial", "Verif.Props.C40_masked_keeps"], "note": "full statement is false: DOM reader: a masked failing member keeps the old value (C40_masked_keeps); streaming parser: containers are appended to, absent members kept (C40_parser_appends)"},
 {"property": "C41", "status": "proved", "theorems": ["Verif.Props.C41_failed_keeps_target"], "note": ""},
 {"property": "C42", "status": "partial", "theorems": ["Verif.Props.C42_document_partial", "Verif.Props.C42_anywhere_partial", "Verif.Props.C42_surroundings"], "note": "full statement is false for named enumerations inside other types, for vectors/sets of characters and pointers to numbers, and for documents exceeding the handler stack; proved for all other types (C42_surroundings for all types)"},
 {"property": "C43", "status": "proved", "theorems": ["Verif.Props.C43_handler_present"], "note": ""},
 {"property": "C44", "status": "partial", "theorems": ["Verif.Props.C44_nested_rejected", "Verif.Props.C44_written_rejected", "Verif.Props.C44_root_partial"], "note": "full statement is false: no non-empty container, tuple or object with a named enumeration is ever accepted; proved at top level"},
 {"property": "C45", "status": "partial", "theorems": ["Verif.Props.C45_numbers_rejected", "Verif.Props.C45_elements_partial"], "note": "full statement is false for characters, enumerations without names and pointers to numbers; proved for all other element types"},
 {"property": "C46", "status": "partial", "theorems": ["Verif.Props.C46_variant_not_shared", "Verif.Props.C46_sharing_partial"], "note": "same restrictions as C26; the full statement is false also for variants with shared objects whose earlier alternatives are refused after reading a shared object at the same place (C46_variant_not_shared)"},
 {"property": "C47", "status": "partial", "theorems": ["Verif.Props.C47_left_out", "Verif.Props.C47_paths_resolve_partial", "Verif.Props.C47_slash_key", "Verif.Props.C47_empty_key", "Verif.Props.C47_inside_set"], "note": "full statement is false: keys with / or ~ or empty keys, objects first met inside a set, and objects first met in a member that is dropped for a non-finite number (C47_left_out); proved for all other values"},
 {"property": "C48", "status": "partial", "theorems": ["Verif.Props.C48_repeated_object_lost", "Verif.Props.C48_set_alone_partial"], "note": "full statement is false for every object (C48_repeated_object_lost): the set's path is recorded instead of the element's; proved for sets whose objects are not met again"},
 {"property": "C49", "status": "partial", "theorems": ["Verif.Props.C49_terminates_partial", "Verif.Props.C49_returns_partial", "Verif.Props.C49_cyclic", "Verif.Props.C49_not_terminating"], "note": "Refuted for cyclic graphs: if an object on a cycle is reachable, neither serializer returns, whatever the depth of recursion (C49_cyclic; witness with two objects in C49_not_terminating). Proved for graphs in a finite heap without reachable cycles: both serializers return and agree. Missing from the property: cyclic graphs. That both return without cycles holds with infinities and NaNs as well (C49_returns_partial); C49_cyclic is about graphs with finite numbers only, since a number that is not finite can end the recursion."},
 {"property": "C50", "status": "proved", "theorems": ["Verif.Props.C50_written_once"], "note": ""},
 {"property": "C51", "status": "partial", "theorems": ["Verif.Props.C51_written_valid_partial", "Verif.Props.C51_variant_overlap", "Verif.Props.C51_shared", "Verif.Props.C51_dict", "Verif.Props.C51_set", "Verif.Props.C51_schema_text_partial"], "note": "full statement is false for variants with overlapping alternatives, repeated shared objects, dictionaries, sets of pointers and enumerations (C51_variant_overlap, C51_shared, C51_dict, C51_set, C54_enum_rejects); proved for all other types, for values without repeated shared objects; C51_schema_text_partial states it for the schema that schema_to_string writes"},
 {"property": "C52", "status": "proved", "theorems": ["Verif.Props.C52_members", "Verif.Props.C52_definitions", "Verif.Props.C52_valid"], "note": "for the class itself and for all entries of definitions; C52_valid says what it means for documents"},
 {"property": "C53", "status": "proved", "theorems": ["Verif.Props.C53_closed"], "note": "class names without / and ~ (typeid names), different for different classes"},
 {"property": "C54", "status": "partial", "theorems": ["Verif.Props.C54_enum_rejects"], "note": "partial: the full statement is false for every enumeration: the list of values is always empty (C54_enum_rejects)"},
 {"property": "C55", "status": "partial", "theorems": ["Verif.Props.C55_set_contents", "Verif.Props.C55_order_and_multiplicity", "Verif.Props.C55_parser_set_contents", "Verif.Props.C55_parser_order_partial"], "note": "both readers; parser: order independence for element types that the parser supports in sets"},
 {"property": "C56", "status": "partial", "theorems": ["Verif.Props.C56_map_partial", "Verif.Props.C56_readers_differ", "Verif.Props.C56_dom_class_first", "Verif.Props.C56_dom_map_last", "Verif.Props.C56_dom_class_map_differ"], "note": "full statement is false: for classes the DOM reader takes the first value, the parser the last (C56_readers_differ); what each reader does is proved, and agreement for maps of leaves (C56_map_partial) and for all documents without repeated keys (C61)"},
 {"property": "C57", "status": "partial", "theorems": ["Verif.Props.C57_keys_read", "Verif.Props.C57_nul_key_lost", "Verif.Props.C57_keys_survive_partial"], "note": "full statement is false: keys are cut at NUL by the DOM reader"},
 {"property": "C58", "status": "partial", "theorems": ["Verif.Props.C58_dictionary_unreadable", "Verif.Props.C58_pairs_read_partial"], "note": "full statement is false for every dictionary: written as an object, read as an array of pairs"},
 {"property": "C59", "status": "partial", "theorems": ["Verif.Props.C59_rest_ignored", "Verif.Props.C59_not_whole", "Verif.Props.C59_whole_partial", "Verif.Props.C59_malformed_rejected"], "note": "Refuted: everything after a NUL character in the string is ignored by all functions (C59_rest_ignored, witness C59_not_whole). Proved for strings without NUL. Assumes of RapidJSON that it accepts exactly the JSON texts of RFC 8259 (structure Reader, satisfiable: someReader)."},
 {"property": "C60", "status": "partial", "theorems": ["Verif.Props.C60_copy_owned_partial", "Verif.Props.C60_move_readable_iff", "Verif.Props.C60_move_dangles"], "note": "Refuted for the overload for std::string&&, whose document refers to the buffer of its argument: readable afterwards iff there are no strings and no members (C60_move_readable_iff, C60_move_dangles). Proved for the overload for const std::string&."},
 {"property": "C61", "status": "partial", "theorems": ["Verif.Props.C61_same_result_partial", "Verif.Props.C61_same_returned_partial", "Verif.Props.C61_unknown_key", "Verif.Props.C61_missing_member", "Verif.Props.C61_big_integer", "Verif.Props.C61_nul_key", "Verif.Props.C61_previous_contents", "Verif.Props.C61_shared_partial"], "note": "proved for documents whose objects have the members of their class once each, integers in floating-point members below 2^digits, map keys without NUL, empty targets; types with shared pointers: C61_shared_partial, documents without references, equal values but for the kind of pointer, separate objects by C84; outside of these the readers differ (C61_unknown_key, C61_missing_member, C61_big_integer, C61_nul_key, C61_previous_contents, C56_readers_differ)"},
 {"property": "C62", "status": "partial", "theorems": ["Verif.Props.C62_returns_partial", "Verif.Props.C62_recursive"], "note": "returns exactly for types whose classes are not recursive; never for recursive ones (C62_recursive)"},
 {"property": "C63", "status": "proved", "theorems": ["Verif.Props.C63_text_denotes_document", "Verif.Props.C63_document_text", "Verif.Props.C63_failure_keeps_string"], "note": "For typed values without infinities and NaNs. Faithful says that Writer::Double writes a number as a text that is read as the same number; it is a condition on the numbers in the document. RapidJSON's Writer is modelled from its documentation."},
 {"property": "C64", "status": "partial", "theorems": ["Verif.Props.C64_message", "Verif.Props.C64_silent", "Verif.Props.C64_unexpected_token", "Verif.Props.C64_expected_accepted_partial", "Verif.Props.C64_content_message_partial", "Verif.Props.C64_content_text_partial", "Verif.Props.C64_contradictory_message", "Verif.Props.C64_expected_never_accepted"], "note": "Refuted: for elements that are characters, enumerations without names or pointers to numbers, and for enumerations without names and a number with a fraction, the message is 'expected JSON token: number...; got: number' (C64_contradictory_message, C64_expected_never_accepted). Proved: every refusal has a non-empty message, which is the one thrown; an unexpected token is reported with the tokens expected; for all other handlers these are acceptable and the message never names an expected token as found. Offset and texts of RapidJSON are parameters."},
 {"property": "C65", "status": "partial", "theorems": ["Verif.Props.C65_int_exact", "Verif.Props.C65_int_back", "Verif.Props.C65_float_reads_beyond", "Verif.Props.C65_float_accepts_others", "Verif.Props.C65_float_json_partial", "Verif.Props.C65_float_exact_partial", "Verif.Props.C65_float_terminated_partial"], "note": "partial: Integers: exact (C65_int_exact). Floating-point numbers: refuted, strtod reads behind the view and accepts other texts (C65_float_reads_beyond, C65_float_accepts_others); exactly which views are accepted is proved against the grammar of C11 7.22.1.3 (C65_float_exact_partial, C65_float_terminated_partial). std::from_chars and std::strtod are modelled after the standard."},
 {"property": "C66", "status": "partial", "theorems": ["Verif.Props.C66_parser_nearest_partial", "Verif.Props.C66_dom_nearest_partial", "Verif.Props.C66_double_rounding", "Verif.Props.C66_dom_integer_exact_partial", "Verif.Props.C66_dom_integer_error_partial"], "note": "full statement is false: the DOM reader rounds integers twice when the target is float (C66_double_rounding); proved for the streaming parser, and for the DOM reader; exactly which integers are stored wrongly is proved (C66_dom_integer_exact_partial), and how far off they are (C66_dom_integer_error_partial)"},
 {"property": "C67", "status": "partial", "theorems": ["Verif.Props.C67_dom_partial", "Verif.Props.C67_parser_partial", "Verif.Props.C67_same_value_partial", "Verif.Props.C67_whole_number", "Verif.Props.C67_format", "Verif.Props.C67_parser_range"], "note": "full statement is false: 1.0 is a valid integer that is refused (C67_whole_number), format and contentEncoding are not assertions (C67_format), numbers beyond the range of a floating-point type (C67_parser_range); proved for all other documents, for the parser with the restrictions of C42 on types"},
 {"property": "C68", "status": "partial", "theorems": ["Verif.Props.C68_variant_confused", "Verif.Props.C68_parser_partial", "Verif.Props.C68_parser_coarse_clock", "Verif.Props.C68_dom_partial", "Verif.Props.C68_one_pointee_partial", "Verif.Props.C68_no_references_partial", "Verif.Props.C68_type_confusion", "Verif.Props.C68_written_confused", "Verif.Props.C68_reference_not_string", "Verif.Props.C68_reference_no_pointer", "Verif.Props.C68_clock"], "note": "full statement is false: a reference to an object of another type is reinterpreted (C68_type_confusion), even in documents that the library wrote (C68_written_confused, C68_variant_confused); references that are no strings or no JSON pointers (C68_reference_not_string, C68_reference_no_pointer); time stamps that overflow the clock (C68_clock); proved for everything else, for the parser without further hypotheses if the clock counts 100 ns or more"},
 {"property": "C69", "status": "partial", "theorems": ["Verif.Props.C69_dom_written_partial", "Verif.Props.C69_returned_written_partial", "Verif.Props.C69_parsed_written_partial", "Verif.Props.C69_masked_null", "Verif.Props.C69_parser_null", "Verif.Props.C69_overflow_unwritable", "Verif.Props.C69_shared_written_partial"], "note": "full statement is false: a missing pointer member that is masked by a later member (C69_masked_null) or that the parser does not miss (C69_parser_null) stays null, and writing it is undefined; a float overflows to infinity, which is not written (C69_overflow_unwritable); proved for documents without these defects, with shared pointers (C69_shared_written_partial) for documents whose references are in order"},
 {"property": "C70", "status": "partial", "theorems": ["Verif.Props.C70_dom_partial", "Verif.Props.C70_returned_partial", "Verif.Props.C70_parser_partial", "Verif.Props.C70_variant_changes", "Verif.Props.C70_dictionary", "Verif.Props.C70_enum_changes", "Verif.Props.C70_shared_partial"], "note": "full statement is false: alternatives of a variant that have the same shape (C70_variant_changes), dictionaries (C70_dictionary), enumerations with a name that occurs twice (C70_enum_changes); proved for types without shared pointers otherwise, under the conditions of C69; with shared pointers (C70_shared_partial) for documents whose references are in order"},
 {"property": "C71", "status": "partial", "theorems": ["Verif.Props.C71_denoted_read_partial", "Verif.Props.C71_denotes_iff_partial", "Verif.Props.C71_throw_exact_partial", "Verif.Props.C71_bool_exact_partial", "Verif.Props.C71_accepts_iff_partial", "Verif.Props.C71_dangling_refused_partial", "Verif.Props.C71_dangling_masked", "Verif.Props.C71_dangling_truncates", "Verif.Props.C71_graph_partial"], "note": "types in which alternatives of variants before the last have shared pointers only at their top, and no shared pointers to shared pointers; no masked members (only inside variants for the throwing variant), no overflow of the clock; dangling references are refused by the boolean variant (C71_dangling_refused_partial) unless masked (C71_dangling_masked), the throwing variant does not report them (C33_reference_not_thrown) and drops what comes after them (C71_dangling_truncates); outside of this C46_variant_not_shared, C68_variant_confused, C32_masked_accepted"},
 {"property": "C72", "status": "partial", "theorems": ["Verif.Props.C72_added_bool", "Verif.Props.C72_added_throw", "Verif.Props.C72_old_files_partial", "Verif.Props.C72_parser_partial", "Verif.Props.C72_required_added", "Verif.Props.C72_older_partial", "Verif.Props.C72_older_variant", "Verif.Props.C72_older_masked", "Verif.Props.C72_older_parser", "Verif.Props.C72_older_reference"], "note": "first half full for the DOM reader (C72_added_bool, C72_added_throw); parser for the types it can read (C42); new members that are required break old documents (C72_required_added). Second half is false with variants (C72_older_variant), references into new members (C72_older_reference), masked members in the boolean variant (C72_older_masked) and for the parser, which refuses unknown members (C72_older_parser); proved otherwise (C72_older_partial)"},
 {"property": "C73", "status": "partial", "theorems": ["Verif.Props.C73_document_partial", "Verif.Props.C73_text_partial", "Verif.Props.C73_roundtrip_partial", "Verif.Props.C73_long_string", "Verif.Props.C73_long_bytes", "Verif.Props.C73_long_keys"], "note": "full statement is false: the conversion to rapidjson::SizeType takes lengths modulo 2^32, and both serializers report success (C73_long_string, C73_long_bytes, C73_long_keys); exact criterion proved (C73_document_partial, C73_text_partial)"},
 {"property": "C74", "status": "partial", "theorems": ["Verif.Props.C74_bound", "Verif.Props.C74_linear_partial", "Verif.Props.C74_references_partial", "Verif.Props.C74_exponential", "Verif.Props.C74_references_quadratic"], "note": "proved for types without variants, and for variants with at most one alternative that is an array and one that is an object (C74_linear_partial), for documents without references; quadratic with them (C74_references_partial), which can happen (C74_references_quadratic); exponential in the depth with other variants (C74_bound), which can happen even for documents that the library has written (C74_exponential)"},
 {"property": "C75", "status": "partial", "theorems": ["Verif.Props.C75_flat", "Verif.Props.C75_throw_partial", "Verif.Props.C75_bool_partial", "Verif.Props.C75_missing_accepted", "Verif.Props.C75_wrong_alternative", "Verif.Props.C75_write_exact", "Verif.Props.C75_broken_text"], "note": "violated: a persist function declared auto returns a copy of the archive, so failures in members of the derived class are lost. The boolean reader accepts documents without them (C75_missing_accepted), variants of derived classes are read back as another alternative, also by the throwing reader (C75_wrong_alternative), and write_to_string reports success with a text that is no JSON (C75_broken_text). Proved: without derived classes nothing changes (C75_flat); the throwing reader is right for documents without references and types without variants of derived classes, and what it returns is accepted by the boolean reader with the same value (C75_throw_partial, C75_bool_partial); the writer succeeds with the text of a document exactly if the class with all members is written, with the same text (C75_write_exact)"},
 {"property": "C76", "status": "proved", "theorems": ["Verif.Props.C76_written", "Verif.Props.C76_text"], "note": "the classes of schema.hpp are a program for the writer model, with the copied archive of JsonSchemaDocument (C75); schemaToString builds and writes the objects"},
 {"property": "C77", "status": "partial", "theorems": ["Verif.Props.C77_shared_throw_partial", "Verif.Props.C77_shared_files_partial", "Verif.Props.C77_throw_partial", "Verif.Props.C77_bool_partial", "Verif.Props.C77_files_partial", "Verif.Props.C77_parser_partial", "Verif.Props.C77_to_vector", "Verif.Props.C77_int64_double", "Verif.Props.C77_alternative_widened", "Verif.Props.C77_alternative_in_front"], "note": "types without shared pointers, and with them, also between unique and shared pointers: C77_shared_throw_partial, C77_shared_files_partial; documents without masked members (C32), for the throwing variant without masked members inside variants (C33); parser for the types it can read (C42). Files written by the old program: C77_files_partial, float becomes double exactly. Not among the changes, with counterexamples: an alternative before the last one of a variant (C77_alternative_widened), alternatives added in front (C77_alternative_in_front), 64-bit integers to double (C77_int64_double), a value to a vector (C77_to_vector)"},
 {"property": "C78", "status": "partial", "theorems": ["Verif.Props.C78_roundtrip_partial", "Verif.Props.C78_read_exact", "Verif.Props.C78_like_converter", "Verif.Props.C78_no_aliases", "Verif.Props.C78_undeclared", "Verif.Props.C78_nul_accepted"], "note": "violated: a value that is not declared is written as an empty string without an error, which no reader accepts (C78_undeclared); the readers pass the characters of the string without its length, so a name followed by a NUL character and anything else is accepted (C78_nul_accepted). Proved: declared values round trip (C78_roundtrip_partial), exactly what is accepted (C78_read_exact), and that for strings without NUL the behaviour is that of the converter of enum_utility.hpp (C78_like_converter), which the other theorems cover. Boost.Describe is modelled from its documentation"},
 {"property": "C79", "status": "partial", "theorems": ["Verif.Props.C79_grammar", "Verif.Props.C79_text_iff", "Verif.Props.C79_written_iff", "Verif.Props.C79_written_partial", "Verif.Props.C79_invalid_written", "Verif.Props.C79_invalid_read", "Verif.Props.C79_late_time"], "note": "violated: strings that are not UTF-8 are written without an error (C79_invalid_written), and texts that are not UTF-8 are accepted (C79_invalid_read), since neither the library nor RapidJSON with its default flags validates; the text of a time after the year 9999 depends on memory that was not written (C79_late_time). Proved: a text is UTF-8 exactly if all strings and keys of its document are (C79_text_iff, C79_written_iff), so texts are UTF-8 if the strings of the value and the names of the program are (C79_written_partial)"},
 {"property": "C80", "status": "proved", "theorems": ["Verif.Props.C80_nodes_exact", "Verif.Props.C80_linear", "Verif.Props.C80_sharing", "Verif.Props.C80_paths_quadratic"], "note": "exact count (C80_nodes_exact), with the family where it matters (C80_sharing: 3n+1 nodes against 2^(n+1)-1 with copies). The number of characters is not linear, because every reference spells the whole path (C80_paths_quadratic)"},
 {"property": "C81", "status": "partial", "theorems": ["Verif.Props.C81_first_failure", "Verif.Props.C81_shared_first_failure", "Verif.Props.C81_one_first_failure", "Verif.Props.C81_text_true_partial", "Verif.Props.C81_shared_text_true_partial", "Verif.Props.C81_integer_expected", "Verif.Props.C81_path_in_text_partial", "Verif.Props.C81_ambiguous", "Verif.Props.C81_cut"], "note": "which report is made is exact, in both directions and unique (C81_first_failure, C81_shared_first_failure, C81_one_first_failure). The sentences are true of the node and of the type read there (C81_text_true_partial), where `expected: integer` means an integer in the range of `int`: 3000000000 is answered by it (C81_integer_expected). The path is in the text unless what is quoted from the document has a slash or NUL (C81_path_in_text_partial; counterexamples C81_ambiguous, C81_cut)"},
 {"property": "C82", "status": "partial", "theorems": ["Verif.Props.C82_left_exact_partial", "Verif.Props.C82_left_total_partial", "Verif.Props.C82_kept_partial", "Verif.Props.C82_other_keys_partial", "Verif.Props.C82_other_members_partial", "Verif.Props.C82_set_unchanged_partial", "Verif.Props.C82_not_atomic", "Verif.Props.C82_pointer_replaced", "Verif.Props.C82_pointer_lost", "Verif.Props.C82_bytes_lost", "Verif.Props.C82_full_vector", "Verif.Props.C82_full_map"], "note": "violated in the strong form: parse is not atomic (C82_not_atomic), the object of a pointer is replaced already by an empty text (C82_pointer_lost, C82_pointer_replaced), bytes are overwritten by those in front of the error and zeros (C82_bytes_lost, C85). Proved, for documents of limited depth and the types that the parser can read (C42): exactly what is left (C82_left_exact_partial), that the specification covers every failure (C82_left_total_partial; needs Calm: no number or string whose conversion throws), and what is kept (C82_kept_partial, C82_other_keys_partial, C82_other_members_partial, C82_set_unchanged_partial); when the handler stack is full, new elements and entries stay (C82_full_vector, C82_full_map)"},
 {"property": "C83", "status": "partial", "theorems": ["Verif.Props.C83_document_partial", "Verif.Props.C83_text_partial", "Verif.Props.C83_again_partial", "Verif.Props.C83_set_order", "Verif.Props.C83_read", "Verif.Props.C83_throw", "Verif.Props.C83_parse_partial"], "note": "violated for sets of shared pointers: std::set orders pointers by address, so the same objects are written in another order (C83_set_order). Proved otherwise: writing (C83_document_partial, C83_text_partial: renaming keeps the order of elements of sets, as it does where no pointers are in sets), writing again what was read (C83_again_partial, restrictions of C26), reading (C83_read, C83_throw, C83_parse_partial; comparison of set elements and default values must not look at addresses that the renaming changes, Env.Blind; parser: types of C42)"},
 {"property": "C84", "status": "partial", "theorems": ["Verif.Props.C84_parse_partial", "Verif.Props.C84_throw_partial", "Verif.Props.C84_bool_partial", "Verif.Props.C84_own", "Verif.Props.C84_own_throw", "Verif.Props.C84_own_parse_partial", "Verif.Props.C84_masked", "Verif.Props.C84_rejected", "Verif.Props.C84_referenced"], "note": "violated where a failed member is masked by a later one, and after rejected documents: std::shared_ptr is assigned before reading, so it holds an object read in part, std::unique_ptr keeps its old value (C84_masked, C84_rejected). Proved otherwise: parser on all documents (C84_parse_partial, types of C42), throwing reader with exceptions (C84_throw_partial), verdicts and accepted values of the boolean reader (C84_bool_partial); sets of pointers excluded (Env.Bare). Separate objects: C84_own (also for rejected documents, any types), C84_own_throw, C84_own_parse_partial (all documents, repeated keys included; maps in the target sorted); with references pointers share (C84_referenced)"},
 {"property": "C85", "status": "partial", "theorems": ["Verif.Props.C85_output", "Verif.Props.C85_only_good_groups", "Verif.Props.C85_dom", "Verif.Props.C85_masked"], "note": "partial: violated in its last sentence: a later member masks the failure, deserialize returns true and the object has zeros in place of its bytes (C85_masked, see C32). Proved: exactly what is left, for every text (C85_output, C85_only_good_groups), through deserialize (C85_dom) and through the parser (C82_bytes_lost)"},
 {"property": "C86", "status": "partial", "theorems": ["Verif.Props.C86_document_partial", "Verif.Props.C86_text_partial", "Verif.Props.C86_times", "Verif.Props.C86_alternatives", "Verif.Props.C86_dropped", "Verif.Props.C86_paths"], "note": "violated for times in the same second (C86_times), alternatives of a variant with the same documents (C86_alternatives), infinities and NaNs in members, which are left out (C86_dropped), and keys with a slash: a reference such as /x/y/z stands for two objects (C86_paths). Proved, in both directions, for the values that survive the round trip (C26): C86_document_partial, C86_text_partial"},
 {"property": "C87", "status": "proved", "theorems": ["Verif.Props.C87_document", "Verif.Props.C87_text", "Verif.Props.C87_shared"], "note": "C87_document, C87_text; where objects are shared the documents differ, since a reference is written: C87_shared"},
 {"property": "C88", "status": "partial", "theorems": ["Verif.Props.C88_same_document", "Verif.Props.C88_outlives_partial", "Verif.Props.C88_strings_outlive", "Verif.Props.C88_readable_iff", "Verif.Props.C88_dangles"], "note": "partial: refuted for std::string_view and char[N] (C88_dangles); C88_readable_iff is the exact condition for values of their types with finite numbers, C88_outlives_partial covers all values, C88_same_document shows that the difference cannot be seen while the value exists"},
 {"property": "C89", "status": "partial", "theorems": ["Verif.Props.C89_tokens", "Verif.Props.C89_found_partial", "Verif.Props.C89_reference_partial", "Verif.Props.C89_overflow", "Verif.Props.C89_written_partial", "Verif.Props.C89_unescaped"], "note": "partial: the overflow test of RapidJSON misses indices such as 6000000000 in arrays with more than 429496729 elements (C89_overflow; C89_found_partial needs smaller arrays); names with / or ~ are not escaped when a reference is written (C89_unescaped; C89_written_partial needs other names). C89_tokens holds of every text"},
 {"property": "C90", "status": "partial", "theorems": ["Verif.Props.C90_date_time_iff", "Verif.Props.C90_date_iff", "Verif.Props.C90_annotated", "Verif.Props.C90_written_partial", "Verif.Props.C90_year_10000", "Verif.Props.C90_read_iff", "Verif.Props.C90_read_moment", "Verif.Props.C90_date_read"], "note": "partial: refuted for years outside 0 to 9999 (C90_year_10000), which only clocks coarser than nanoseconds have; C90_date_time_iff and C90_date_iff are exact. Date-times with fraction, offset, small letters or leap second are refused by the readers (C90_read_iff, exact)"},
 {"property": "C91", "status": "proved", "theorems": ["Verif.Props.C91_no_dangling", "Verif.Props.C91_references", "Verif.Props.C91_lifetimes", "Verif.Props.C91_in_place", "Verif.Props.C91_variable", "Verif.Props.C91_unwritten", "Verif.Props.C91_every_program"], "note": "for all types that can be parsed (C91_every_program); the type `dict` of the model, which the single theorems exclude (`Ty.dictless`), is what the writers make of vectors of pairs with strings, and never the choice of the parser (resolve_dictless)"},
 {"property": "C92", "status": "partial", "theorems": ["Verif.Props.C92_read_partial", "Verif.Props.C92_throw_partial", "Verif.Props.C92_document", "Verif.Props.C92_text_partial", "Verif.Props.C92_moment", "Verif.Props.C92_parse", "Verif.Props.C92_left", "Verif.Props.C92_parse_text", "Verif.Props.C92_parse_throw", "Verif.Props.C92_same_names", "Verif.Props.C92_read_shared_partial", "Verif.Props.C92_throw_shared_partial", "Verif.Props.C92_objects_bound", "Verif.Props.C92_objects_partial", "Verif.Props.C92_objects_throw_partial", "Verif.Props.C92_measures", "Verif.Props.C92_refused_alternative"], "note": "full statement is false: an alternative of a variant that is refused leaves its shared objects in the table of references, where a reference finds them (C92_refused_alternative), and the DOM reader reads a member of the document once for each member of the class with this name (C92_same_names). Proved for all documents without references; with references for variants with at most one alternative of each kind, and with a factor for each level otherwise (C92_objects_bound); parser for all types. No initialisers that hold elements or text (`Env.Slim`, `Env.Vacant`)"},
 {"property": "C93", "status": "partial", "theorems": ["Verif.Props.C93_document_partial", "Verif.Props.C93_verdict", "Verif.Props.C93_size", "Verif.Props.C93_reading", "Verif.Props.C93_same_value_partial", "Verif.Props.C93_shared"], "note": "full statement is false: of an object that is the value of two keys, the order decides which entry holds it and which holds the reference (C93_shared). Documents proved for values that reach no object twice; verdict, number of nodes and reading without this condition; the value read back under the conditions of C26. An order is a function of the place of the map and of its keys"},
 {"property": "C94", "status": "partial", "theorems": ["Verif.Props.C94_types_partial", "Verif.Props.C94_document", "Verif.Props.C94_value", "Verif.Props.C94_nesting", "Verif.Props.C94_exact_partial", "Verif.Props.C94_recursive"], "note": "full statement is false: for a class that contains itself the depth grows with the input, three calls per level in the example, without limit in the code (C94_recursive). For all other types the nesting of the type bounds it (C94_types_partial); for all types the levels of the value and of the document (C94_value, C94_document, C94_nesting). The depth of what is read is exact without variants and references (C94_exact_partial). RapidJSON's own recursion while it parses a text is not modelled"},
 {"property": "C95", "status": "partial", "theorems": ["Verif.Props.C95_read_partial", "Verif.Props.C95_variant", "Verif.Props.C95_duplicate", "Verif.Props.C95_write_partial", "Verif.Props.C95_text_partial", "Verif.Props.C95_parse_partial"], "note": "full statement is false: a change inside of a variant may select another alternative (C95_variant), and a change of a key that is there twice is not seen (C95_duplicate). Proved for places under sequences, arrays, tuples, maps, dictionaries, sets, members and unique pointers, for writing also under variants and objects that are shared but used once, and beside shared objects (C95_read_partial, C95_write_partial); the same for the streaming writer (C95_text_partial) and for the streaming parser where both readers agree (C95_parse_partial). Missing: reading of shared objects (places inside of shared objects that are used several times: C108 for writing)"},
 {"property": "C96", "status": "partial", "theorems": ["Verif.Props.C96_not_early", "Verif.Props.C96_continues_partial", "Verif.Props.C96_refused_partial", "Verif.Props.C96_enum_late", "Verif.Props.C96_deep_late"], "note": "full statement is false for enumerations with names inside of other types (C96_enum_late) and for types that are nested deeper than the stack of handlers (C96_deep_late): the parser reads on although no document can be accepted. That the parser never stops too early holds for all types (C96_not_early). Proved both ways for types without such enumerations and without variants as long as there is room on the handler stack (C96_continues_partial, C96_refused_partial)"},
 {"property": "C97", "status": "proved", "theorems": ["Verif.Props.C97_success", "Verif.Props.C97_failure", "Verif.Props.C97_writer", "Verif.Props.C97_writer_success", "Verif.Props.C97_overwritten"], "note": "proved for all well-typed values with non-null pointers: success (C97_success, C97_writer_success) and failure (C97_failure, C97_writer). C97_overwritten shows that the destination of a failed serialize_to_document is not as it was, in contrast to write_to_string with a std::string (C29)"},
 {"property": "C98", "status": "proved", "theorems": ["Verif.Props.C98_exact", "Verif.Props.C98_shared", "Verif.Props.C98_shaped", "Verif.Props.C98_member", "Verif.Props.C98_not_atomic"], "note": "proved for every document: C98_exact (types without shared pointers), C98_shared (all types, documents without references; the addresses of shared objects are not specified), C98_shaped (always a value of the type), C98_member (members are independent). Calm: time stamps out of the range of the clock are undefined behaviour. C98_not_atomic shows that the stronger property fails: the variable changes although false is returned"},
 {"property": "C99", "status": "partial", "theorems": ["Verif.Props.C99_bool_partial", "Verif.Props.C99_throw_partial", "Verif.Props.C99_parse", "Verif.Props.C99_parse_throw_partial", "Verif.Props.C99_bool_uninitialised", "Verif.Props.C99_parse_uninitialised", "Verif.Props.C99_shared_bool_partial", "Verif.Props.C99_shared_throw_partial"], "note": "bool parse: full (C99_parse). Deserialize: documents without a masked bad member, also with references (C99_shared_bool_partial, C99_shared_throw_partial; no shared pointers in alternatives of variants before the last, none to shared pointers); T parse: documents that have every member and no containers outside of pointers and optional members. The unchanged code violates the rest: C99_bool_uninitialised (an optional member whose value is refused, masked by a later good member), C99_parse_uninitialised (a required member that is not in the text)"},
 {"property": "C100", "status": "partial", "theorems": ["Verif.Props.C100_document_partial", "Verif.Props.C100_text_partial", "Verif.Props.C100_time_iff", "Verif.Props.C100_leak"], "note": "proved for all values whose years are in 0 to 9999. The unchanged code violates the rest: C100_time_iff (exactly these years), C100_leak (a document)"},
 {"property": "C101", "status": "partial", "theorems": ["Verif.Props.C101_exclusive_partial", "Verif.Props.C101_mixture", "Verif.Props.C101_two_iff", "Verif.Props.C101_other_text", "Verif.Props.C101_no_such_day", "Verif.Props.C101_alone", "Verif.Props.C101_document_partial"], "note": "violated: gmtime returns an object that all threads share; for any two time stamps a thread may obtain the text of the other thread's (C101_other_text), or a mixture of both, such as 2000-02-31, which no reader accepts (C101_no_such_day). Exactly which texts two threads may obtain: C101_two_iff; a bound for all schedules: C101_mixture. Proved: schedules in which no thread calls gmtime while another one reads its result (C101_exclusive_partial, C101_alone, C101_document_partial). Data races are undefined in C++; the model gives them the most favourable meaning"},
 {"property": "C102", "status": "partial", "theorems": ["Verif.Props.C102_key", "Verif.Props.C102_never_wrong", "Verif.Props.C102_accepted_iff", "Verif.Props.C102_refused", "Verif.Props.C102_violated", "Verif.Props.C102_same_partial", "Verif.Props.C102_throw"], "note": "violated: while the table of a class with three or more members is still filled with zeros, every key but the name of its first member is refused (C102_key, C102_refused, C102_violated). Proved for all states of the initialisation: the outcome is that of main or a refusal, never a wrong value or undefined behaviour (C102_never_wrong, C102_throw); exactly which documents are accepted (C102_accepted_iff); documents whose classes have their tables (C102_same_partial)"},
 {"property": "C103", "status": "partial", "theorems": ["Verif.Props.C103_lost", "Verif.Props.C103_one_map", "Verif.Props.C103_not_shared_partial", "Verif.Props.C103_aliased", "Verif.Props.C103_confused", "Verif.Props.C103_parser_map", "Verif.Props.C103_reference_read"], "note": "violated: a shared map with the key \"$ref\" is never read back (C103_lost, C103_one_map); it may be read, with success reported, as another object of the document (C103_aliased), or with undefined behaviour as an object of another type (C103_confused); the parser reads the reference to a repeated map as a map (C103_reference_read). Proved to be read back: maps that are not shared (C103_not_shared_partial), maps without this key (C103_one_map), one shared map in the parser (C103_parser_map); for all other types C26 and C27"},
 {"property": "C104", "status": "partial", "theorems": ["Verif.Props.C104_confused", "Verif.Props.C104_exact_partial"], "note": "violated: objects are known again by their address, which an object shares with its first member and with its base; for any two objects of different types at one address the second is lost and reading is undefined (C104_confused). Proved for all pairs of objects at different addresses or of one type, when the objects have no shared parts (C104_exact_partial; with shared parts, under a heap with one type for each address, C26 and C46)"},
 {"property": "C105", "status": "partial", "theorems": ["Verif.Props.C105_exact", "Verif.Props.C105_more", "Verif.Props.C105_bytes", "Verif.Props.C105_dictionary", "Verif.Props.C105_same_document_partial"], "note": "violated: binary data is written as an array of numbers unless the header for bytes is included, a vector of pairs with a string as an array unless the header for maps is (C105_bytes, C105_dictionary); C105_exact says that these are the only two cases, C105_same_document_partial is the property for all programs without them"},
 {"property": "C106", "status": "partial", "theorems": ["Verif.Props.C106_writers", "Verif.Props.C106_supported_iff", "Verif.Props.C106_read_written_partial", "Verif.Props.C106_written_read_partial", "Verif.Props.C106_readers_partial", "Verif.Props.C106_schema_partial", "Verif.Props.C106_not_supported"], "note": "violated: the types that each operation supports differ (C106_not_supported); C106_supported_iff says which types are supported, the other theorems by which forms the operations differ, and that vectors of pairs with a string are the only types that are written as one thing and read as another. Classes are in a table: their members are instantiated when the class is, which C105_same_document_partial covers"},
 {"property": "C107", "status": "partial", "theorems": ["Verif.Props.C107_exact_partial", "Verif.Props.C107_text_exact_partial", "Verif.Props.C107_not_text", "Verif.Props.C107_types"], "note": "violated: a pointer to characters is written as a number, an array longer than its text with NULs, an array without NUL loses its last character (C107_not_text); C107_exact_partial and C107_text_exact_partial are equivalences for all holders. C107_types: inside any type, and as keys, string views are written as strings are. Arrays of length zero are not C++"},
 {"property": "C108", "status": "proved", "theorems": ["Verif.Props.C108_document", "Verif.Props.C108_exact", "Verif.Props.C108_text"], "note": "contents without shared objects of their own; the value may have other shared objects and, in C108_document, members that fail"},
 {"property": "C109", "status": "partial", "theorems": ["Verif.Props.C109_calls_partial", "Verif.Props.C109_bound_partial", "Verif.Props.C109_unshared_partial", "Verif.Props.C109_text_calls", "Verif.Props.C109_text_calls_exact", "Verif.Props.C109_text_bound_partial", "Verif.Props.C109_chain", "Verif.Props.C109_not_linear", "Verif.Props.C109_exponential"], "note": "violated: the DOM serializer needs 12*2^n-7 calls for a graph of size 5n+4 (C109_exponential), and paths make a chain of n shared objects cost about n*n/2 (C109_chain, C109_not_linear); proved: exactly one call per value and pointer for values with finite numbers, at most one for texts whatever the value, with paths at most 1+2*depth times the size; not counted: search in std::map, RapidJSON, bytes of strings"},
 {"property": "C110", "status": "partial", "theorems": ["Verif.Props.C110_places_partial", "Verif.Props.C110_calls_partial", "Verif.Props.C110_linear_partial", "Verif.Props.C110_exponential"], "note": "violated: make_schema generates the schema of a class before looking whether there is a definition, so n+1 classes with two members each take 2^(n+1)-1 calls (C110_exponential); proved: exactly one call for each place of the unfolded type, and linear when no class is at two places; not counted: map lookups, copies of schemas"},
 {"property": "C111", "status": "partial", "theorems": ["Verif.Props.C111_dom_partial", "Verif.Props.C111_exactly_partial", "Verif.Props.C111_parser_partial", "Verif.Props.C111_unknown", "Verif.Props.C111_repeated", "Verif.Props.C111_variant", "Verif.Props.C111_reference", "Verif.Props.C111_missing"], "note": "violated by the unchanged code for unknown members, repeated elements of sets, variants with overlapping alternatives, references, missing members (parser), enumerations (C54): negations with witnesses; proved for the other types and documents, and with C67 an equivalence"},
 {"property": "C112", "status": "proved", "theorems": ["Verif.Props.C112_valid", "Verif.Props.C112_invalid"], "note": "an equivalence for all documents, both verdicts; the specification `Meets` speaks of types and documents only"},
 {"property": "C113", "status": "partial", "theorems": ["Verif.Props.C113_loosened_partial", "Verif.Props.C113_written_partial", "Verif.Props.C113_reads_partial", "Verif.Props.C113_variant", "Verif.Props.C113_removed"], "note": "proved through C112 for the changes of `Loosens`; false for new alternatives that are read from the same kind of JSON values and for removed members, although the reader minds neither: negations with witnesses"},
 {"property": "C114", "status": "partial", "theorems": ["Verif.Props.C114_linear_partial", "Verif.Props.C114_calls_partial", "Verif.Props.C114_exponential"], "note": "violated by the unchanged code for pointers to classes, which are described in place again and again (C114_exponential); proved without them (C114_linear_partial), and for all types relative to the number of calls of C110 (C114_calls_partial)"},
 {"property": "C115", "status": "proved", "theorems": ["Verif.Props.C115_part", "Verif.Props.C115_vector", "Verif.Props.C115_vector_fails", "Verif.Props.C115_tuple", "Verif.Props.C115_map", "Verif.Props.C115_unordered", "Verif.Props.C115_pairs", "Verif.Props.C115_class", "Verif.Props.C115_written", "Verif.Props.C115_common"], "note": "the condition is needed: a part that refers to an object of an earlier part is written as a reference (C115_common)"},
 {"property": "C116", "status": "partial", "theorems": ["Verif.Props.C116_every_pointer_partial"], "note": "under the conditions of C26, which are needed: paths can express the places, earlier alternatives of variants reject what is written for later ones; contents without shared objects of their own"},
 {"property": "C117", "status": "partial", "theorems": ["Verif.Props.C117_document", "Verif.Props.C117_same_documents_partial", "Verif.Props.C117_enumeration", "Verif.Props.C117_reference", "Verif.Props.C117_parser"], "note": "without enumerations and references, for which it is false (C117_enumeration, C117_reference); false of the streaming parser (C117_parser)"},
 {"property": "C118", "status": "partial", "theorems": ["Verif.Props.C118_vector", "Verif.Props.C118_vector_read", "Verif.Props.C118_vector_threw", "Verif.Props.C118_set", "Verif.Props.C118_dictionary", "Verif.Props.C118_array", "Verif.Props.C118_tuple_partial", "Verif.Props.C118_map", "Verif.Props.C118_pointer_partial", "Verif.Props.C118_class_partial", "Verif.Props.C118_initial", "Verif.Props.C118_shared"], "note": "for tuples, classes and unique pointers only if the parts of a new object are like new objects of their types; false otherwise (C118_initial), and false with shared pointers (C118_shared)"},
 {"property": "C119", "status": "proved", "theorems": ["Verif.Props.C119_vector", "Verif.Props.C119_appended", "Verif.Props.C119_set", "Verif.Props.C119_map", "Verif.Props.C119_class", "Verif.Props.C119_dom"], "note": "of the streaming parser; false of the DOM reader (C119_dom)"},
 {"property": "C120", "status": "partial", "theorems": ["Verif.Props.C120_beginning", "Verif.Props.C120_incomplete_partial", "Verif.Props.C120_written_partial", "Verif.Props.C120_joined", "Verif.Props.C120_number"], "note": "for documents that are not numbers; false for numbers (C120_number); on the contract of the RapidJSON reader (Reader)"},
 {"property": "C121", "status": "partial", "theorems": ["Verif.Props.C121_schema", "Verif.Props.C121_dom_partial", "Verif.Props.C121_parser_partial", "Verif.Props.C121_never_differ", "Verif.Props.C121_integers", "Verif.Props.C121_variant", "Verif.Props.C121_zero"], "note": "for types without integers; with the parser for integers of no more bits than the floating-point types have (53 or 24). Violated otherwise: 1.0 is not read into an int, 2^53 is parsed into a double only with a decimal point (C121_integers), a variant reads different alternatives (C121_variant), the sign of zero (C121_zero); validity against the generated schema: in full, for all types and the sign of zero (C121_schema)"},
 {"property": "C122", "status": "partial", "theorems": ["Verif.Props.C122_verdict", "Verif.Props.C122_shared_partial", "Verif.Props.C122_error", "Verif.Props.C122_shared_error_partial", "Verif.Props.C122_schema", "Verif.Props.C122_value_partial", "Verif.Props.C122_overlap"], "note": "the verdicts and errors for types without shared pointers and the validity in full; with shared pointers on documents without references; the value for the outermost variant. Violated by the value where a document fits several alternatives (C122_overlap)"},
 {"property": "C123", "status": "partial", "theorems": ["Verif.Props.C123_verdict", "Verif.Props.C123_error", "Verif.Props.C123_shared_partial", "Verif.Props.C123_references", "Verif.Props.C123_schema", "Verif.Props.C123_schema_set"], "note": "for types without shared pointers in full, with shared pointers on documents without references. Violated with references, which only shared pointers follow (C123_references); validity against the generated schema for the exchanges of `look` (C123_schema), violated for sets and vectors (C123_schema_set)"},
 {"property": "C124", "status": "proved", "theorems": ["Verif.Props.C124_search", "Verif.Props.C124_write", "Verif.Props.C124_read", "Verif.Props.C124_parse", "Verif.Props.C124_repeated"], "note": "in full for tables without repetitions; with repetitions the order matters (C124_repeated)"},
 {"property": "C125", "status": "proved", "theorems": ["Verif.Props.C125_write", "Verif.Props.C125_read", "Verif.Props.C125_parse", "Verif.Props.C125_merged"], "note": "in full; readers of documents for different classes that stay different, because a reference to an object of another class is undefined behaviour even if its members are the same (C125_merged)"},
 {"property": "C126", "status": "partial", "theorems": ["Verif.Props.C126_verdict_partial", "Verif.Props.C126_shared_partial", "Verif.Props.C126_bool", "Verif.Props.C126_variant", "Verif.Props.C126_which", "Verif.Props.C126_parse_partial", "Verif.Props.C126_schema", "Verif.Props.C126_schema_exists", "Verif.Props.C126_schema_text"], "note": "for the throwing reader and programs without classes inside variants, and for the reader without exceptions on documents that the throwing one accepts; with shared pointers on documents without references; for the streaming parser and the types of C42 with room on the handler stack. the generated schemas have the same valid documents for all types (C126_schema, C126_schema_exists), though not the same text (C126_schema_text). Violated by the reader without exceptions (C126_bool) and inside variants (C126_variant), because each member overwrites the result; the order also decides which of two errors is thrown (C126_which)"}
]}
