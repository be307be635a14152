{"id": "C01", "title": "Base64 round trip", "statement": "Decoding the text produced by encoding a byte sequence succeeds and returns exactly that byte sequence.", "quantifier": "every finite byte sequence, on little- and big-endian hosts", "why_tests_cant": "infinitely many inputs; the encoder switches code path on the length modulo 24 and 3, a test samples a handful of lengths", "anchors": ["include/persistence/base64.hpp: base64_encode", "include/persistence/base64.hpp: base64_decode"]}
{"id": "C02", "title": "Base64 output is the RFC 4648 text", "statement": "The encoder's output is the standard Base64 text: the input bits in order, cut in 6-bit groups, zero-filled, mapped through the standard alphabet and padded with '=' to a multiple of four; it has length 4*ceil(n/3) and does not depend on the machine's byte order nor on what memory follows the input.", "quantifier": "every finite byte sequence, both byte orders, every content of the memory behind the buffer", "why_tests_cant": "the word-at-a-time fast path reads two bytes beyond the six it encodes; only a proof shows those bytes never influence the output", "anchors": ["include/persistence/base64.hpp: base64_encode", "include/persistence/base64.hpp: encode_sextet_little_endian", "include/persistence/base64.hpp: encode_sextet_big_endian", "include/persistence/base64.hpp: encode_triplet"]}
{"id": "C03", "title": "Base64 encoder stays inside its input buffer", "statement": "Encoding a buffer of n bytes only reads offsets 0..n-1 of that buffer.", "quantifier": "every buffer length n", "why_tests_cant": "an out-of-bounds read of up to two bytes is silent in a normal test run and depends on n modulo 24", "anchors": ["include/persistence/base64.hpp: base64_encode (fast_sextets)"]}
{"id": "C04", "title": "Base64 decoder accepts exactly padded Base64 text", "statement": "Decoding succeeds exactly when the text is empty, or its length is a multiple of four and all characters are alphabet characters except that the last one or two may be '='; on success the bytes are the 8-bit regrouping of the 6-bit symbol values.", "quantifier": "every finite character sequence", "why_tests_cant": "acceptance is a statement about all strings; tests can only sample rejected strings", "anchors": ["include/persistence/base64.hpp: base64_decode", "include/persistence/base64.hpp: decode_quadruplet", "include/persistence/base64.hpp: decode_table"]}
{"id": "C05", "title": "Base64 text is canonical", "statement": "Two different texts never decode to the same bytes; re-encoding a decoded text gives the text back.", "quantifier": "every pair of accepted texts", "why_tests_cant": "requires the absence of a second preimage over all texts", "anchors": ["include/persistence/base64.hpp: base64_decode"]}
{"id": "C06", "title": "Timestamp text round trip", "statement": "Formatting a whole-second timestamp in years 0000 to 9999 and parsing the text gives the same timestamp.", "quantifier": "every whole second of the years 0..9999 (3.2e11 instants), any clock resolution whose range contains the instant", "why_tests_cant": "too many instants; calendar code fails at century/leap boundaries that samples miss", "anchors": ["include/persistence/datetime.hpp: to_iso_datetime", "include/persistence/datetime.hpp: parse_datetime", "include/persistence/datetime.hpp: make_datetime"]}
{"id": "C07", "title": "Timestamp parser accepts exactly the valid UTC date-times", "statement": "A text is accepted iff it is YYYY-MM-DD, 'T' or blank, HH:MM:SS and 'Z' with decimal digits, an existing Gregorian calendar day, hour<24, minute<60, second<60; the result is the number of seconds of that calendar moment after 1970-01-01T00:00:00Z.", "quantifier": "every character sequence", "why_tests_cant": "a statement about all strings, including the rejected ones", "anchors": ["include/persistence/datetime.hpp: parse_datetime", "include/persistence/datetime.hpp: is_valid_date", "include/persistence/datetime.hpp: from_digits"]}
{"id": "C08", "title": "Timestamp texts sort chronologically", "statement": "For two timestamps in years 0..9999 the lexicographic order of their texts is the order of their whole seconds.", "quantifier": "every pair of timestamps in the range", "why_tests_cant": "quadratically many pairs", "anchors": ["include/persistence/datetime.hpp: to_iso_datetime"]}
{"id": "C09", "title": "Sub-second timestamps lose less than a second and never move forward", "statement": "Formatting then parsing a timestamp with a fractional second yields an instant at most as late as the original and less than one second away.", "quantifier": "every clock tick in range, every clock resolution", "why_tests_cant": "rounding direction matters only before the epoch, which samples rarely cover", "anchors": ["include/persistence/datetime.hpp: to_iso_datetime"]}
{"id": "C10", "title": "Accepted date-times are representable", "statement": "When the timestamp parser accepts a text, the resulting instant is computed without arithmetic overflow in the clock's representation.", "quantifier": "every accepted text, clock resolutions of nanoseconds, 100 nanoseconds and microseconds", "why_tests_cant": "overflow is undefined behaviour and is not observed by equality checks on usual dates", "anchors": ["include/persistence/datetime.hpp: make_datetime", "include/persistence/datetime.hpp: parse_datetime"]}
{"id": "C11", "title": "Calendar date round trip and acceptance", "statement": "Formatting a calendar date of years 0..9999 and parsing it gives the same date; a date text is accepted iff it is YYYY-MM-DD and names an existing day.", "quantifier": "every calendar date of the range, every character sequence", "why_tests_cant": "3.65 million dates and all strings", "anchors": ["include/persistence/datetime.hpp: to_iso_date", "include/persistence/datetime.hpp: parse_date", "include/persistence/serialize_date.hpp", "include/persistence/deserialize_date.hpp"]}
{"id": "C12", "title": "Every timestamp is written as a text the parser accepts", "statement": "The text written for any timestamp is a valid date-time text that parses back to the same second.", "quantifier": "every timestamp of the clock, including years before 0 and after 9999", "why_tests_cant": "boundary of the four-digit year field", "anchors": ["include/persistence/datetime.hpp: AlignedDigitWriter", "include/persistence/datetime.hpp: to_iso_datetime"]}
{"id": "C13", "title": "Parsed integers are exact or rejected", "statement": "Parsing a JSON integer into a C++ integer type succeeds iff the mathematical value lies in the range of the type, and then stores exactly that value.", "quantifier": "every 8/16/32/64-bit signed or unsigned target, every JSON integer the reader can report", "why_tests_cant": "2^64 values times all pairs of widths and signs; sign-conversion mistakes hide at the extremes", "anchors": ["include/persistence/detail/numeric_traits.hpp: is_assignable", "include/persistence/parse_fundamental.hpp: JsonNumberValueParser"]}
{"id": "C14", "title": "Integers parsed into floating-point are exact, and every exactly representable integer is accepted", "statement": "A JSON integer parsed into float/double is accepted iff it can be represented exactly, and the stored value equals it.", "quantifier": "every JSON integer, float and double targets", "why_tests_cant": "2^65 integers; the threshold is at powers of two", "anchors": ["include/persistence/detail/numeric_traits.hpp: is_assignable"]}
{"id": "C15", "title": "Deserialized integers are exact or rejected", "statement": "Deserializing a DOM number into an integer type succeeds iff the number is an integer within the range of the type, and then stores exactly that value; otherwise the target keeps its value.", "quantifier": "every DOM number, every integer type", "why_tests_cant": "all 64-bit values and type pairs", "anchors": ["include/persistence/deserialize_fundamental.hpp: check_range", "include/persistence/deserialize_fundamental.hpp: JsonSignedIntegerDeserializer"]}
{"id": "C16", "title": "Streaming and DOM reading agree on numbers", "statement": "For a numeric target type and a JSON number, parse and deserialize both accept with equal values or both reject.", "quantifier": "every JSON number, every arithmetic target type", "why_tests_cant": "differential over all numbers", "anchors": ["include/persistence/detail/numeric_traits.hpp", "include/persistence/deserialize_fundamental.hpp", "include/persistence/parse_fundamental.hpp"]}
{"id": "C17", "title": "Floating-point values are read without silent loss", "statement": "When a JSON floating-point number is accepted for a float or double target, the stored value equals the number reported by the reader.", "quantifier": "every double value, float and double targets", "why_tests_cant": "loss occurs for almost all doubles read into float but tests use values such as 1.5", "anchors": ["include/persistence/detail/numeric_traits.hpp: is_assignable", "include/persistence/deserialize_fundamental.hpp: JsonFloatDeserializer"]}
{"id": "C18", "title": "Enumeration names round trip", "statement": "With a conversion table, reading the written name of an enumerator in the table gives the enumerator back whenever the names are pairwise distinct (aliases allowed), and not for both of two enumerators with the same written name; a name that reads as an enumerator is written again whenever the values are pairwise distinct; first entries win, a name not in the table is rejected, a value not in the table is written as the empty string.", "quantifier": "every conversion table, every enumeration value, every text", "why_tests_cant": "tables are user supplied and arbitrary", "anchors": ["include/persistence/enum_utility.hpp: EnumConverter", "include/persistence/serialize_enum.hpp", "include/persistence/deserialize_enum.hpp"]}
{"id": "C19", "title": "Member-name lookup is exact", "statement": "Once the member lookup table of a class has been built, looking up the i-th member name gives i.", "quantifier": "every list of member names, every construction that completes", "why_tests_cant": "depends on a seed search over hash values of user-chosen names", "anchors": ["include/persistence/detail/perfect_hash.hpp: PerfectHash", "include/persistence/parse_object.hpp: JsonObjectParser"]}
{"id": "C20", "title": "Lookup of foreign keys is safe and rejected", "statement": "Looking up an arbitrary key in a built table stays within the table and a key that is not a member name is rejected by the object parser.", "quantifier": "every table, every byte string", "why_tests_cant": "adversarial keys: all byte strings", "anchors": ["include/persistence/detail/perfect_hash.hpp: index", "include/persistence/parse_object.hpp: JsonObjectParser::parse(JsonObjectKey)"]}
{"id": "C21", "title": "The member lookup table can always be built", "statement": "For every class with pairwise distinct member names the lookup table construction terminates.", "quantifier": "every list of distinct names", "why_tests_cant": "non-termination is a property of an unbounded search; a test only shows that particular classes work", "anchors": ["include/persistence/detail/perfect_hash.hpp: scatter", "include/persistence/detail/perfect_hash.hpp: is_distributable"]}
{"id": "C22", "title": "All key-dispatch strategies implement the same lookup", "statement": "For classes with one, two or more members the key handler selects the member whose name equals the key and rejects every other key.", "quantifier": "every class shape, every key", "why_tests_cant": "three different implementations, all keys", "anchors": ["include/persistence/parse_object.hpp: JsonSoloObjectParser", "include/persistence/parse_object.hpp: JsonPairObjectParser", "include/persistence/parse_object.hpp: JsonObjectParser"]}
{"id": "C23", "title": "Handler stack is a stack of disjoint, in-bounds, aligned objects", "statement": "After any sequence of emplace and pop operations the live objects occupy disjoint, aligned ranges inside the stack's memory, and back() is the most recently emplaced live object.", "quantifier": "every operation history, object sizes that are multiples of their alignment (alignment at most that of a pointer)", "why_tests_cant": "memory-layout invariant over all histories", "anchors": ["include/persistence/detail/polymorphic_stack.hpp: PolymorphicStack"]}
{"id": "C24", "title": "Handler stack destroys every object exactly once", "statement": "Over any history followed by the stack's destruction every constructed object is destroyed exactly once, in reverse order; a rejected emplace or pop changes nothing.", "quantifier": "every operation history", "why_tests_cant": "history-quantified resource property", "anchors": ["include/persistence/detail/polymorphic_stack.hpp: emplace", "include/persistence/detail/polymorphic_stack.hpp: pop", "include/persistence/detail/polymorphic_stack.hpp: ~PolymorphicStack"]}
{"id": "C25", "title": "Boolean parse never throws", "statement": "parse(text, object) reports every problem through its return value.", "quantifier": "every document and type, including deeply nested ones", "why_tests_cant": "only documents nested beyond the handler stack's capacity reveal it", "anchors": ["include/persistence/parse.hpp: parse", "include/persistence/detail/polymorphic_stack.hpp: emplace"]}
{"id": "C26", "title": "DOM round trip", "statement": "Serializing a value to a DOM and deserializing it reports success and gives an equal value (pointer identity up to renaming), for every supported type built from null, bool, numbers, strings, bytes, timestamps, enumerations, vectors, arrays, sets, maps, tuples, variants whose earlier alternatives reject, smart pointers and classes.", "quantifier": "every type in the universe, every value of it, every hash-map iteration order, every previous content of the target", "why_tests_cant": "recursive over all types and values", "anchors": ["include/persistence/serialize.hpp", "include/persistence/deserialize.hpp", "include/persistence/serialize_object.hpp", "include/persistence/deserialize_object.hpp"]}
{"id": "C27", "title": "String round trip through the streaming parser", "statement": "Writing a value to a string and parsing it with the streaming parser into a fresh object gives an equal value.", "quantifier": "every parsable type without shared back-references, every value", "why_tests_cant": "recursive over all types and values; the parser is a stateful push-down machine", "anchors": ["include/persistence/write.hpp: write_to_string", "include/persistence/parse.hpp: parse"]}
{"id": "C28", "title": "Both serializers produce the same text", "statement": "write_to_string(x) equals document_to_string(serialize_to_document(x)), and one succeeds iff the other does.", "quantifier": "every type and value, every hash-map iteration order", "why_tests_cant": "two independent recursive implementations", "anchors": ["include/persistence/write.hpp", "include/persistence/serialize.hpp", "include/persistence/utility.hpp: document_to_string", "include/persistence/serialize_object.hpp: write", "include/persistence/write_object.hpp: write"]}
{"id": "C29", "title": "Writing fails exactly on non-finite numbers", "statement": "write_to_string succeeds iff no floating-point number reached from the value is NaN or infinite; on failure the destination string is untouched.", "quantifier": "every type and value (all pointers non-null)", "why_tests_cant": "error propagation through every container kind at every depth", "anchors": ["include/persistence/write_fundamental.hpp: JsonFloatWriter", "include/persistence/write.hpp: write_to_string"]}
{"id": "C30", "title": "DOM serialization never loses data silently", "statement": "When serialize_to_document reports success every reached non-optional member is present in the document.", "quantifier": "every type and value", "why_tests_cant": "error propagation at every depth; failure flags may be dropped in one place", "anchors": ["include/persistence/serialize_object.hpp: JsonObjectSerializer::write"]}
{"id": "C31", "title": "Objects list exactly the engaged members in declaration order", "statement": "A serialized class object contains, in declaration order, exactly one member per non-optional member variable and per engaged optional.", "quantifier": "every class and object", "why_tests_cant": "all member lists and engagement patterns", "anchors": ["include/persistence/serialize_object.hpp", "include/persistence/write_object.hpp"]}
{"id": "C32", "title": "Boolean deserialize reports success only for conforming documents", "statement": "deserialize(document, object) returns true iff every required member is present and every present member (recursively) has the right form.", "quantifier": "every class, every document", "why_tests_cant": "a failing member followed by a succeeding one must still fail: all combinations of members", "anchors": ["include/persistence/deserialize_object.hpp: JsonObjectDeserializer::operator&"]}
{"id": "C33", "title": "Throwing deserialize throws exactly for non-conforming documents", "statement": "deserialize<T>(document) throws iff the document does not conform to T, and otherwise returns the decoded value.", "quantifier": "every type, every document", "why_tests_cant": "all documents, all nesting depths", "anchors": ["include/persistence/deserialize.hpp: deserialize", "include/persistence/deserialize_check.hpp"]}
{"id": "C34", "title": "Throwing and boolean deserialize agree", "statement": "deserialize<T>(document) throws iff deserialize(document, object) returns false, and on success both give the same value.", "quantifier": "every type, every document", "why_tests_cant": "differential over all documents", "anchors": ["include/persistence/deserialize.hpp", "include/persistence/deserialize_object.hpp", "include/persistence/deserialize_pointer.hpp"]}
{"id": "C35", "title": "Error paths locate the offending node", "statement": "The path reported by a deserialization exception addresses, from the document root, the node that was rejected (for a missing member: the object lacking it).", "quantifier": "every type, every rejected document whose keys need no escaping", "why_tests_cant": "all nesting shapes", "anchors": ["include/persistence/deserialize_check.hpp", "include/persistence/detail/deserialize_context.hpp: segments", "include/persistence/detail/path.hpp: str"]}
{"id": "C36", "title": "Variants read the first matching alternative", "statement": "Deserializing a variant yields the value of the first alternative type for which the document conforms, and fails iff none conforms.", "quantifier": "every list of alternatives, every document", "why_tests_cant": "all alternative lists and documents", "anchors": ["include/persistence/deserialize_variant.hpp"]}
{"id": "C37", "title": "Unknown members", "statement": "The DOM reader ignores object members that are not member names; the streaming parser rejects them.", "quantifier": "every class, every object document, every foreign key and value", "why_tests_cant": "all foreign keys and positions", "anchors": ["include/persistence/deserialize_object.hpp: find_object_member", "include/persistence/parse_object.hpp"]}
{"id": "C38", "title": "Member order is irrelevant", "statement": "Permuting the members of JSON objects with pairwise distinct keys does not change the result of deserialize or parse for a class without shared references, nor whether the document is valid against the generated schema.", "quantifier": "every class, every permutation", "why_tests_cant": "factorially many orders", "anchors": ["include/persistence/deserialize_object.hpp", "include/persistence/parse_object.hpp"]}
{"id": "C39", "title": "Fixed-size sequences require the exact length", "statement": "Arrays, pairs and tuples are read only from JSON arrays of exactly their length, by both readers.", "quantifier": "every length, element type and document", "why_tests_cant": "all lengths", "anchors": ["include/persistence/parse_array.hpp: JsonFixedArrayParser", "include/persistence/deserialize_array.hpp", "include/persistence/deserialize_tuple.hpp", "include/persistence/deserialize_check.hpp: check_size"]}
{"id": "C40", "title": "Reading does not depend on what the target contained", "statement": "A successful read leaves the same value in the target whatever it contained before (default members excepted).", "quantifier": "every type, document and previous target value", "why_tests_cant": "all previous states", "anchors": ["include/persistence/deserialize_vector.hpp", "include/persistence/deserialize_map.hpp", "include/persistence/deserialize_set.hpp", "include/persistence/parse_vector.hpp", "include/persistence/parse_set.hpp", "include/persistence/parse_map.hpp"]}
{"id": "C41", "title": "Failed reads of arrays, smart pointers and scalars leave the target unchanged", "statement": "When deserializing an array, unique pointer, number, string, enumeration or timestamp fails, the target keeps its previous value.", "quantifier": "every element type, document, previous value", "why_tests_cant": "all failure points", "anchors": ["include/persistence/deserialize_array.hpp", "include/persistence/deserialize_pointer.hpp", "include/persistence/deserialize_fundamental.hpp"]}
{"id": "C42", "title": "The push parser computes the recursive meaning of the document", "statement": "Feeding the events of a document to the handler stack succeeds iff the document matches the type recursively and leaves the recursively decoded value in the target, independent of the surrounding handlers.", "quantifier": "every parsable type, every document, every enclosing parser state", "why_tests_cant": "state machine with unbounded stack versus a recursive specification", "anchors": ["include/persistence/parse_base.hpp", "include/persistence/parse_vector.hpp", "include/persistence/parse_set.hpp", "include/persistence/parse_map.hpp", "include/persistence/parse_array.hpp", "include/persistence/parse_object.hpp", "include/persistence/parse_pointer.hpp"]}
{"id": "C43", "title": "The push parser never dispatches to a missing handler", "statement": "While reading any document no event is delivered when no handler is active, and no pop is attempted on an empty handler stack.", "quantifier": "every type, every document, every point of the event stream", "why_tests_cant": "crash freedom over all documents", "anchors": ["include/persistence/parse_base.hpp: ReaderContext::pop", "include/persistence/detail/parse_event.hpp: JsonParseEventDispatcher"]}
{"id": "C44", "title": "Named enumerations can be parsed anywhere", "statement": "A type containing a named enumeration parses every document that the writer produced for it.", "quantifier": "every type containing a named enumeration, every value", "why_tests_cant": "bug appears only in nested positions", "anchors": ["include/persistence/parse_enum.hpp: JsonEnumParser"]}
{"id": "C45", "title": "A vector or set parses whenever its elements do", "statement": "If T parses each document in a list, then vector<T> and set<T> parse the JSON array of these documents.", "quantifier": "every element type, every list of documents", "why_tests_cant": "all element types; the generic item parser only forwards one token kind", "anchors": ["include/persistence/parse_vector.hpp: JsonArrayParser", "include/persistence/parse_set.hpp: JsonSetParser", "include/persistence/parse_items.hpp"]}
{"id": "C46", "title": "Object sharing survives the DOM round trip", "statement": "Shared pointers that are equal in the source are equal in the result and distinct ones stay distinct, and the pointed-to values are equal.", "quantifier": "every acyclic object graph whose shared objects lie outside sets and under escape-free keys", "why_tests_cant": "all graphs", "anchors": ["include/persistence/serialize_pointer.hpp", "include/persistence/deserialize_pointer.hpp", "include/persistence/detail/references.hpp"]}
{"id": "C47", "title": "Back-reference paths resolve to the first occurrence", "statement": "The path text written for a repeated shared object, evaluated as a JSON Pointer on the produced document, addresses the node of the object's first occurrence.", "quantifier": "every document position, every key text", "why_tests_cant": "all key texts, including '/', '~' and empty keys", "anchors": ["include/persistence/detail/path.hpp: str", "include/persistence/detail/output_context.hpp: segments", "include/persistence/deserialize_pointer.hpp"]}
{"id": "C48", "title": "Sharing inside sets", "statement": "Shared objects first met inside a set can be referred to later in the document.", "quantifier": "every object graph with a set of shared pointers", "why_tests_cant": "needs a set followed by a back-reference", "anchors": ["include/persistence/serialize_set.hpp", "include/persistence/write_set.hpp"]}
{"id": "C49", "title": "Serialization of shared graphs terminates", "statement": "Serializing any finite graph of shared objects terminates.", "quantifier": "every finite object graph, cyclic ones included", "why_tests_cant": "termination is not testable", "anchors": ["include/persistence/serialize_pointer.hpp", "include/persistence/write_pointer.hpp"]}
{"id": "C50", "title": "A shared object is written once", "statement": "In the produced document each shared object is written in full exactly once; every further occurrence is a {\"$ref\": path} object.", "quantifier": "every acyclic object graph", "why_tests_cant": "all graphs", "anchors": ["include/persistence/serialize_pointer.hpp", "include/persistence/write_pointer.hpp"]}
{"id": "C51", "title": "Written documents satisfy the generated schema", "statement": "For a supported type the document written for any value validates against the JSON schema generated for the type.", "quantifier": "every supported type and value", "why_tests_cant": "all types and values", "anchors": ["include/persistence/schema.hpp: schema_to_document", "include/persistence/write.hpp"]}
{"id": "C52", "title": "Generated schema lists exactly the members and required members", "statement": "The schema of a class lists all member names as properties in order, forbids others, and requires exactly the non-optional ones.", "quantifier": "every class", "why_tests_cant": "all member lists", "anchors": ["include/persistence/schema.hpp: JsonSchemaVisitor"]}
{"id": "C53", "title": "Generated schemas are closed", "statement": "Every reference in a generated schema names an entry of its definitions.", "quantifier": "every supported type", "why_tests_cant": "all nestings of classes", "anchors": ["include/persistence/schema.hpp: JsonSchemaContext"]}
{"id": "C54", "title": "Enumeration schemas accept the enumeration's values", "statement": "The schema generated for an enumeration accepts the documents written for its enumerators.", "quantifier": "every enumeration type", "why_tests_cant": "all enumerations", "anchors": ["include/persistence/schema.hpp: JsonSchemaEnumType", "include/persistence/schema.hpp: JsonSchema<T, enum>"]}
{"id": "C55", "title": "Sets are read as mathematical sets", "statement": "Reading a JSON array into a set yields a sorted duplicate-free container with exactly the decoded elements, independent of their order and multiplicity.", "quantifier": "every array of documents", "why_tests_cant": "all permutations and multiplicities", "anchors": ["include/persistence/deserialize_set.hpp", "include/persistence/parse_set.hpp"]}
{"id": "C56", "title": "Duplicate keys are treated alike by both readers", "statement": "For a JSON object with repeated keys, parse and deserialize give the same result.", "quantifier": "every object document", "why_tests_cant": "rarely tested corner, all documents", "anchors": ["include/persistence/deserialize_object.hpp", "include/persistence/deserialize_map.hpp", "include/persistence/parse_object.hpp", "include/persistence/parse_map.hpp"]}
{"id": "C57", "title": "Map keys are preserved exactly", "statement": "Map keys survive the DOM round trip whatever characters they contain.", "quantifier": "every key, including keys with embedded NUL characters", "why_tests_cant": "NUL characters in keys", "anchors": ["include/persistence/deserialize_map.hpp: JsonDictionaryDeserializer"]}
{"id": "C58", "title": "Dictionaries stored as vectors of pairs round trip", "statement": "A vector of string/value pairs, written as a JSON object, is read back as an equal vector.", "quantifier": "every element type and value", "why_tests_cant": "asymmetric specialisation choice", "anchors": ["include/persistence/dictionary.hpp", "include/persistence/serialize_map.hpp", "include/persistence/deserialize_vector.hpp"]}
{"id": "C59", "title": "The whole input string is read", "statement": "parse and deserialize accept a string only if the whole string, not just a prefix of it, is a JSON text.", "quantifier": "every std::string including ones with embedded NUL", "why_tests_cant": "all strings", "anchors": ["include/persistence/parse.hpp: detail::parse", "include/persistence/deserialize.hpp", "include/persistence/utility.hpp: string_to_document"]}
{"id": "C60", "title": "Documents own what they refer to", "statement": "A document returned by string_to_document stays valid after the call.", "quantifier": "both overloads, every input", "why_tests_cant": "use after free is timing and allocator dependent", "anchors": ["include/persistence/utility.hpp: string_to_document"]}
{"id": "C61", "title": "The two readers agree", "statement": "parse and deserialize accept the same documents for a type and read the same value.", "quantifier": "every type, every JSON document, every initial value of the target", "why_tests_cant": "two independent readers, all documents", "anchors": ["include/persistence/parse.hpp", "include/persistence/deserialize.hpp", "include/persistence/parse_object.hpp", "include/persistence/deserialize_object.hpp"]}
{"id": "C62", "title": "Schema generation terminates", "statement": "schema_to_document and schema_to_string return for every type for which they compile.", "quantifier": "every type, including classes that refer to themselves through containers or pointers", "why_tests_cant": "all class tables; a test can only wait", "anchors": ["include/persistence/schema.hpp: JsonSchemaContext", "include/persistence/schema.hpp: JsonSchema<T>::type"]}
{"id": "C63", "title": "Text and document correspond", "statement": "The string of write_to_string is a JSON text by RFC 8259 of exactly the document of serialize_to_document; document_to_string of any document is a JSON text of that document only, for strings with any bytes; when writing fails, the string is left unchanged.", "quantifier": "all types, all values, all documents, every conversion of floating-point numbers that is faithful on the numbers present", "why_tests_cant": "all values and all byte strings; a test compares single texts", "anchors": ["include/persistence/write.hpp: write_to_string", "include/persistence/utility.hpp: document_to_string", "include/persistence/write_base.hpp: StringWriter"]}
{"id": "C64", "title": "Parse errors explain the refusal", "statement": "When the throwing parse refuses a text, the exception names the offset and a non-empty reason: the message of the first value refused, or RapidJSON's text for a syntax error. A refused token is reported with the tokens that are expected in its place, each of which would be accepted, and the token found is none of them.", "quantifier": "all types, all texts, all states of the handler stack, all events", "why_tests_cant": "all combinations of handler and token", "anchors": ["include/persistence/parse_base.hpp: JsonParseHandler::fail", "include/persistence/parse_base.hpp: ReaderContext::fail", "include/persistence/parse.hpp: T parse(const std::string&)", "include/persistence/exception.hpp: JsonParseError", "include/persistence/detail/parse_event.hpp"]}
{"id": "C65", "title": "parse_number reads exactly the number in the view", "statement": "parse_number accepts a view exactly if its characters are the text of a number of the type, stores that number, and does not depend on anything outside the view.", "quantifier": "all integer and floating-point types, all views, all contents of the memory behind the view", "why_tests_cant": "all texts; reading behind the view is invisible in a test with null-terminated strings", "anchors": ["include/persistence/number.hpp: parse_number", "include/persistence/number.hpp: NumberParser"]}
{"id": "C66", "title": "Numbers are stored as the nearest floating-point value", "statement": "A number read into a float or double is stored as the value of the type nearest to the number in the document as RapidJSON reports it, the even one of two equally near; if the stored value is infinite the number is at least half-way from the greatest value to the next power of two.", "quantifier": "all integer and floating-point numbers, float and double, streaming parser and DOM reader", "why_tests_cant": "rounding errors of one unit in the last place at rare integers cannot be found by sampling", "anchors": ["include/persistence/deserialize_fundamental.hpp: JsonFloatDeserializer", "include/persistence/parse_fundamental.hpp: JsonNumberValueParser", "include/persistence/detail/numeric_traits.hpp: is_assignable"]}
{"id": "C67", "title": "Documents that are valid against the schema can be read", "statement": "A document that is valid against the schema generated for a type is accepted by deserialize and parse, which read the same value from it.", "quantifier": "every type for which a schema is generated, every JSON document, every schema version", "why_tests_cant": "all documents; two independent descriptions of the format", "anchors": ["include/persistence/schema.hpp: JsonSchema<T>::type", "include/persistence/deserialize.hpp", "include/persistence/parse.hpp"]}
{"id": "C68", "title": "Reading has no undefined behaviour", "statement": "Whatever the document is, deserialize and parse return true or false or throw an exception; they do not read an object as one of another type, use a value that is no string as a string, or overflow the clock.", "quantifier": "every type, every JSON document (also incomplete ones for the parser), every initial content of the target", "why_tests_cant": "documents come from outside of the program; undefined behaviour need not show in a test", "anchors": ["include/persistence/deserialize_pointer.hpp: JsonDeserializer<std::shared_ptr<T>>", "include/persistence/detail/deserialize_context.hpp", "include/persistence/parse_object.hpp", "include/persistence/datetime.hpp: parse"]}
{"id": "C69", "title": "What was read can be written", "statement": "When a document is reported as read, the value that is left or returned is a complete value of its type, and serializing it is defined and succeeds.", "quantifier": "every type without shared pointers, every document, every initial content of the target, all three readers that report success", "why_tests_cant": "which values a reader can leave behind depends on all of the document, on the order of its members and on the previous contents", "anchors": ["include/persistence/deserialize_object.hpp: JsonObjectDeserializer", "include/persistence/parse_object.hpp", "include/persistence/serialize_pointer.hpp", "include/persistence/write_pointer.hpp"]}
{"id": "C70", "title": "Reading is stable under rewriting", "statement": "When a document is read and the value is written, what is written is read as the same value: a program that rewrites its files changes nothing after the first time.", "quantifier": "every type without shared pointers, every document that is accepted, both readers", "why_tests_cant": "a round trip test starts from values, not from documents with omitted, unknown or repeated members", "anchors": ["include/persistence/deserialize_variant.hpp", "include/persistence/deserialize_object.hpp", "include/persistence/serialize_object.hpp", "include/persistence/write_object.hpp"]}
{"id": "C71", "title": "Documents with references denote object graphs, and the readers build exactly them", "statement": "A document in which every reference points to an object of its type that comes before it denotes one object graph: one object for every node that is read as shared, pointers to the same object exactly where references say so. Both variants of the DOM reader build exactly that graph, for any previous contents, and reject exactly the documents in which some node does not have the form that its type asks for.", "quantifier": "every type, every document with references, every previous contents", "why_tests_cant": "tests have a few fixed documents with references; which object a reference denotes depends on the table that reading all earlier nodes has left, including alternatives that were given up", "anchors": ["include/persistence/deserialize_pointer.hpp", "include/persistence/deserialize_object.hpp: JsonObjectDeserializer", "include/persistence/deserialize_variant.hpp", "include/persistence/deserialize.hpp"]}
{"id": "C72", "title": "Classes can evolve", "statement": "After members that are optional or have defaults have been added to classes, every document of the time before is accepted exactly if it was accepted before and is read as the same value with values for the new members; documents of the time after are still read by the program of the time before.", "quantifier": "every change of every class, every type, every document (with references, repeated and unknown members), every previous content, both variants of the DOM reader and the streaming parser", "why_tests_cant": "two programs and all documents; a test has one program", "anchors": ["include/persistence/deserialize_object.hpp: JsonObjectDeserializer", "include/persistence/parse_object.hpp", "include/persistence/object_members.hpp", "include/persistence/deserialize_variant.hpp"]}
{"id": "C73", "title": "Strings of any length are written in full", "statement": "The strings, binary data and keys that reach the document or the writer are those of the value, whatever their length.", "quantifier": "every type, every value, lengths up to the range of std::size_t", "why_tests_cant": "conversions of lengths change something only from 4 GiB on", "anchors": ["include/persistence/serialize_string.hpp", "include/persistence/write_string.hpp", "include/persistence/serialize_bytes.hpp", "include/persistence/write_bytes.hpp", "include/persistence/serialize_map.hpp", "include/persistence/write_map.hpp", "include/persistence/serialize_pointer.hpp", "include/persistence/write_pointer.hpp"]}
{"id": "C74", "title": "Reading a document takes time proportional to its size", "statement": "The number of calls of readers, comparisons of keys and steps of references while a document is read is bounded by a constant of the type times the number of values in the document.", "quantifier": "every type, every document, both variants of the DOM reader", "why_tests_cant": "tests check results, and measure time for a few documents at most; the bad cases need deep nesting", "anchors": ["include/persistence/deserialize.hpp", "include/persistence/deserialize_object.hpp", "include/persistence/deserialize_variant.hpp", "include/persistence/deserialize_pointer.hpp", "include/persistence/deserialize_vector.hpp", "include/persistence/deserialize_map.hpp", "include/persistence/deserialize_tuple.hpp"]}
{"id": "C75", "title": "Derived classes are read and written like classes with all the members", "statement": "A class whose persist function calls that of its base class, as the documentation shows, is read and written like a class that lists all the members itself: the same documents are accepted, with the same values, and the same values are written, with the same texts.", "quantifier": "every type with derived classes, every document, every value; both variants of the DOM reader, and the streaming writer", "why_tests_cant": "the tests read and write derived classes with complete documents and values only; that a failure in a member of the derived class is lost shows with incomplete ones", "anchors": ["include/persistence/deserialize_object.hpp", "include/persistence/write_object.hpp", "include/persistence/serialize_object.hpp", "include/persistence/deserialize_variant.hpp", "include/persistence/object.hpp", "README.md"]}
{"id": "C76", "title": "schema_to_string writes the schema", "statement": "Whenever a schema is made for a type, writing it succeeds, and the text is a JSON text of the schema document (version, definitions, members of the schema in the order of persist) and of no other document.", "quantifier": "every class table, every type for which the generator returns, every version string", "why_tests_cant": "tests compare a handful of schemas with expected texts", "anchors": ["include/persistence/schema.hpp: JsonSchemaDocument", "include/persistence/schema_utility.hpp", "include/persistence/write_object.hpp", "include/persistence/write_variant.hpp", "include/persistence/write_map.hpp"]}
{"id": "C77", "title": "Types can be widened", "statement": "After types of variables have been replaced by larger ones (a larger integer type, a floating-point type that holds all the integers, double for float, more enumerators, a vector for an array, pair, tuple or set, a pointer for an object and the other way round, a variant for its first alternative, text for time stamps and binary data, optional for required) and members have been moved or removed, every document that was accepted is accepted, and the new values hold the same data.", "quantifier": "every pair of class tables related by such changes (also recursive classes), every type, every document, both variants of the DOM reader; every file written by the old program, both readers", "why_tests_cant": "two programs and all documents; a test has one program", "anchors": ["include/persistence/deserialize_object.hpp: JsonObjectDeserializer", "include/persistence/deserialize_variant.hpp", "include/persistence/deserialize_vector.hpp", "include/persistence/deserialize_array.hpp", "include/persistence/deserialize_tuple.hpp", "include/persistence/deserialize_fundamental.hpp", "include/persistence/deserialize_enum.hpp", "include/persistence/deserialize_pointer.hpp"]}
{"id": "C78", "title": "Enumerations described with Boost.Describe", "statement": "With PERSISTENCE_BOOST_DESCRIBE, every declared value of a described enumeration is written as one of its names and is read back by both readers; a string is accepted exactly if it is the name of an enumerator; a value that is not declared is not written as if it were one.", "quantifier": "every table of enumerators, also with several names for one value, every value of the enumeration, every JSON value", "why_tests_cant": "the project's tests are compiled only with the macro, and try the declared values and two numbers", "anchors": ["include/persistence/serialize_enum.hpp: JsonEnumSerializer (PERSISTENCE_BOOST_DESCRIBE)", "include/persistence/write_enum.hpp: JsonEnumWriter", "include/persistence/deserialize_enum.hpp: JsonEnumDeserializer", "include/persistence/parse_enum.hpp: JsonEnumParser"]}
{"id": "C79", "title": "Texts are written and accepted in UTF-8", "statement": "What write_to_string writes is a text in UTF-8 (RFC 8259 section 8.1 requires it), and texts that are not in UTF-8 are refused.", "quantifier": "every type, every typed value with any bytes in strings, keys and names, every JSON text with and without escapes", "why_tests_cant": "a test tries single strings; the property speaks about all byte sequences, about escapes and surrogate pairs, and about the paths in references that are put together from names", "anchors": ["include/persistence/write.hpp: write_to_string", "include/persistence/write_string.hpp", "include/persistence/write_object.hpp", "include/persistence/write_map.hpp", "include/persistence/write_pointer.hpp", "include/persistence/detail/path.hpp: Path::str", "include/persistence/parse.hpp: parse", "include/persistence/deserialize.hpp: deserialize"]}
{"id": "C80", "title": "Shared objects are written once: size of documents", "statement": "The number of nodes of the document of a value is the number of nodes of its object graph, in which every shared object counts once: each shared object that can be reached is written exactly once in full and every other pointer to it costs a reference. So documents are linear in the size of the graph, also where the graph has exponentially many paths.", "quantifier": "every class table, every typed value over every heap, any number of pointers to an object, every iteration order of unordered maps", "why_tests_cant": "tests have a handful of pointers; the count is over all graphs, and the family with 2^n paths cannot be enumerated", "anchors": ["include/persistence/serialize_pointer.hpp: JsonSerializer<std::shared_ptr<T>>", "include/persistence/detail/references.hpp: ReferenceTable", "include/persistence/serialize_object.hpp", "include/persistence/serialize_vector.hpp", "include/persistence/serialize_map.hpp"]}
{"id": "C81", "title": "Which error is thrown, and what its text says", "statement": "A throwing read of a document that is not acceptable reports the first defect in reading order (arrays and maps by position, classes in the order of their members, required members in their turn): its path is the position of that defect, and there is exactly one such report. The reason in the text is true of the node at that path and of the type that is read there, and the path can be found in the text.", "quantifier": "every class table, every type (with shared pointers: every document without references), every document with any number of defects at any depth", "why_tests_cant": "tests check single defects in small documents; which of several defects is reported, and that the sentence is true of the node, concerns all combinations", "anchors": ["include/persistence/exception.hpp: JsonDeserializationError", "include/persistence/deserialize_check.hpp", "include/persistence/deserialize_fundamental.hpp", "include/persistence/deserialize_datetime.hpp", "include/persistence/deserialize_enum.hpp", "include/persistence/deserialize_object.hpp", "include/persistence/detail/path.hpp"]}
{"id": "C82", "title": "What a failed parse leaves in the variable", "statement": "When bool parse(text, variable) returns false, the variable holds its old value overwritten by exactly what was read before the refused token (or before the end of the text): elements appended to vectors and sets, entries of maps assigned, members assigned, and the element in work as far as it was read. Nothing is removed (vectors, sets and keys of maps keep what they had, members and keys that do not occur in the text keep their values); only the objects of pointers are replaced, and bytes are lost.", "quantifier": "every class table with streamable classes, every type, every document (accepted or not), every prefix of its events, every previous value of the variable", "why_tests_cant": "tests look at the return value and at the variable after success; what is left after a failure depends on the place of the failure in every combination of containers", "anchors": ["include/persistence/parse.hpp: parse", "include/persistence/parse_base.hpp", "include/persistence/parse_vector.hpp", "include/persistence/parse_set.hpp", "include/persistence/parse_array.hpp", "include/persistence/parse_map.hpp", "include/persistence/parse_object.hpp", "include/persistence/parse_pointer.hpp", "include/persistence/parse_bytes.hpp", "include/persistence/base64.hpp"]}
{"id": "C83", "title": "Addresses do not matter", "statement": "The document and the text of a value depend on which pointers share an object, not on the addresses of the objects: the same object graph at any other addresses is written in the same way, byte by byte, so documents are reproducible, and a value that was written and read is written again as the same document. Reading does not depend on the addresses which the allocator returns, nor on where the objects of the target are: the verdict, the exception and the value are the same but for the addresses.", "quantifier": "every class table, every type, every value with any sharing, every renaming of addresses that keeps different objects different, every document, both DOM readers and the parser", "why_tests_cant": "a test runs with the addresses its allocator happens to return; a dependency on them shows up as a difference between runs", "anchors": ["include/persistence/serialize_pointer.hpp: JsonSerializer<std::shared_ptr<T>>", "include/persistence/write_pointer.hpp: JsonWriter<std::shared_ptr<T>>", "include/persistence/deserialize_pointer.hpp: JsonDeserializer<Exception, std::shared_ptr<T>>", "include/persistence/parse_pointer.hpp: JsonParser<std::shared_ptr<T>>", "include/persistence/serialize_set.hpp", "include/persistence/write_set.hpp", "include/persistence/detail/references.hpp"]}
{"id": "C84", "title": "Shared pointers are read like unique pointers, each with an object of its own", "statement": "A document without references is read into a type with shared pointers exactly as into the type with unique pointers in their place: the same verdict, the same exception with the same path, the same value but for the kind of pointer. Every shared pointer that is read gets an object of its own: no two of them share an object, and none shares an object with something that was there before. So sharing comes from references only.", "quantifier": "every class table, every type, every document without references (parser: every document, also with repeated keys), every previous value of the variable, both DOM readers and the parser", "why_tests_cant": "a test compares a few pairs of types; that objects are never shared by accident concerns all combinations of containers, repeated keys and failed attempts", "anchors": ["include/persistence/deserialize_pointer.hpp: JsonDeserializer<Exception, std::shared_ptr<T>>", "include/persistence/deserialize_pointer.hpp: JsonDeserializer<Exception, std::unique_ptr<T>>", "include/persistence/parse_pointer.hpp: JsonParser<std::shared_ptr<T>>", "include/persistence/parse_pointer.hpp: JsonParser<std::unique_ptr<T>>", "include/persistence/deserialize_variant.hpp", "include/persistence/deserialize_object.hpp", "include/persistence/parse_map.hpp"]}
{"id": "C85", "title": "What a refused Base64 text leaves in the byte vector", "statement": "base64_decode decodes straight into the variable. After a refused text the variable holds nothing if the length is not a multiple of four, and otherwise the bytes of the groups of four characters in front of the first group with a wrong character, followed by a zero for each remaining byte. The old bytes are lost, and nothing behind the first wrong group has an influence. A variable with such contents is never taken for a value that was read.", "quantifier": "every text, every previous contents, DOM reader and parser", "why_tests_cant": "a test sees a few wrong texts and mostly looks at the returned value only; the contents depend on the position of the first error in a text of any length", "anchors": ["include/persistence/base64.hpp: base64_decode", "include/persistence/deserialize_bytes.hpp", "include/persistence/parse_bytes.hpp", "include/persistence/deserialize_object.hpp"]}
{"id": "C86", "title": "Different values are written differently", "statement": "Two values of a type have the same document, and the same text, only if they are the same object graph: equal but for the addresses of the shared objects, with pointers to the same object in the one exactly where they are in the other. Conversely the same object graph always has the same document.", "quantifier": "every type, every pair of values with any sharing, both serializers", "why_tests_cant": "a test compares the documents of a few values; that no two of infinitely many values, with all ways to share objects, collide is a statement about pairs", "anchors": ["include/persistence/serialize.hpp", "include/persistence/serialize_pointer.hpp", "include/persistence/serialize_object.hpp", "include/persistence/write_pointer.hpp", "include/persistence/detail/path.hpp: Path::str"]}
{"id": "C87", "title": "Shared pointers without sharing are written like unique pointers", "statement": "A value whose shared pointers refer to different objects has the document and the text of the same value with unique pointers: no reference is written, members and elements come in the same order, and the same values are refused.", "quantifier": "every type, every value whose shared pointers refer to different objects, both serializers, also values with infinities and NaNs", "why_tests_cant": "a test compares the two for a few types; the table of written objects is consulted at every pointer, and its content depends on everything written before", "anchors": ["include/persistence/serialize_pointer.hpp", "include/persistence/write_pointer.hpp", "include/persistence/detail/references.hpp"]}
{"id": "C88", "title": "A document can be used after the value is gone", "statement": "The document made by serialize_to_document is independent of the value: it can be gone through after the value is destroyed or changed, and is the same as before. (Refuted for strings that are views or arrays of characters, whose characters are not copied; proved to hold exactly when no such string is reached from the value.)", "quantifier": "every program, every type, every value with any sharing, every choice of string types at every place of the declarations", "why_tests_cant": "a test uses the document while the value exists, where all string types give the same result; memory that is gone often still has its old content", "anchors": ["include/persistence/serialize_string.hpp", "include/persistence/serialize_map.hpp", "include/persistence/serialize_pointer.hpp", "include/persistence/serialize_object.hpp", "include/persistence/serialize.hpp: serialize_to_document"]}
{"id": "C89", "title": "A reference means what RFC 6901 says", "statement": "The text of a reference is taken apart, and followed in the document, as RFC 6901 prescribes for JSON pointers: accepted exactly when it is a JSON pointer, and leading to the value which the RFC defines, or to none; and the references written by the serializer are JSON pointers to the first occurrence of the object. (Refuted twice: an index such as 6000000000 is taken for a small one in huge arrays, and names with a slash or a tilde are written without escapes.)", "quantifier": "every text, every document with any duplicate or odd member names", "why_tests_cant": "a test follows references that the library has written itself, in documents with ordinary names; escapes, odd indices and overflow do not occur there", "anchors": ["include/persistence/deserialize_pointer.hpp", "include/persistence/detail/path.hpp", "include/persistence/serialize_pointer.hpp"]}
{"id": "C90", "title": "The annotations of the schema are true", "statement": "Where the schema says that a string is a date-time, a date or encoded in base64, the string written is one according to RFC 3339 or RFC 4648, and it denotes the value written; exactly bytes, points in time and dates are described in this way. (Refuted for years beyond 9999, exact criterion proved; and of the texts which the annotation allows to others, exactly those with Z, in capitals, without fraction and leap second are read.)", "quantifier": "every value without parts, every clock, every text that RFC 3339 allows with any fraction and offset", "why_tests_cant": "validators do not check formats by default; a test has a few dates in the present; the set of texts allowed is infinite", "anchors": ["include/persistence/schema.hpp: JsonSchema", "include/persistence/datetime.hpp", "include/persistence/base64.hpp", "include/persistence/serialize_datetime.hpp", "include/persistence/serialize_date.hpp", "include/persistence/serialize_bytes.hpp"]}
{"id": "C91", "title": "Handlers of the streaming parser refer only to living objects", "statement": "The handlers of the streaming parser keep references into the variable that is filled, or into the temporary storage of a set handler below. No handler ever reads or writes through a reference that has become invalid because a vector has grown, an optional or pointer was set again, or a storage was released; and filling the variable in place gives the same outcome and the same value as handlers which make their objects separately and pass them on when complete.", "quantifier": "every type that the parser supports, every state of the variable, every sequence of events, whether or not it is a document, every size of the handlers", "why_tests_cant": "invalid references often work by accident; whether a vector moves its elements depends on capacities; the number of nestings is unbounded", "anchors": ["include/persistence/parse_base.hpp", "include/persistence/parse_vector.hpp", "include/persistence/parse_set.hpp", "include/persistence/parse_array.hpp", "include/persistence/parse_map.hpp", "include/persistence/parse_object.hpp", "include/persistence/parse_pointer.hpp", "include/persistence/parse.hpp"]}
{"id": "C92", "title": "What is read is no larger than what it is read from", "statement": "The number of elements and entries in the containers of a value that is read, with the bytes of its strings, keys and byte vectors, is bounded by the length of the text plus what was in the variable before. This holds for the values returned, at every moment of a parse, and for what is left in the variable when reading fails: no short text makes the library store a large value.", "quantifier": "DOM reader: every type and every document without references, or with references if at most one alternative of a variant is an array and one an object (objects that are referred to several times are counted once); every variable, both variants; parser: every type, every sequence of events, every typed or empty variable; classes whose members have distinct names (DOM reader) and are not initialised with elements or text", "why_tests_cant": "tests read a few documents; a blow-up needs a particular combination of nesting, repeated keys, refused alternatives or pre-filled variables", "anchors": ["include/persistence/deserialize_vector.hpp", "include/persistence/deserialize_object.hpp", "include/persistence/deserialize_map.hpp", "include/persistence/parse_vector.hpp", "include/persistence/parse_set.hpp", "include/persistence/parse_map.hpp", "include/persistence/parse_object.hpp", "include/persistence/deserialize.hpp", "include/persistence/parse.hpp", "include/persistence/base64.hpp"]}
{"id": "C93", "title": "The iteration order of unordered maps does not matter", "statement": "The documents of one value under two iteration orders of its unordered maps differ only in the order of members with distinct names; whether the value can be written, and how many nodes its document has, does not depend on the order; each of the documents is read back as the value, under either order.", "quantifier": "every type, every well-typed value, every two orders that visit each key exactly once", "why_tests_cant": "the order depends on the hash function, the number of buckets and the history of the map: a test sees the order of one library on one day", "anchors": ["include/persistence/serialize_map.hpp", "include/persistence/write_map.hpp", "include/persistence/serialize_pointer.hpp", "include/persistence/detail/references.hpp"]}
{"id": "C94", "title": "Recursion is bounded", "statement": "For each type there is a bound on how many calls of serialize and deserialize are active at the same time, whatever the value or the document is; the depth never exceeds the levels of the value, nor the levels of the document times the longest row of pointers and variants in a type.", "quantifier": "every program of types, every document and every value, both variants of deserialize", "why_tests_cant": "stack overflow by nested input needs documents far deeper than tests use; the bound is a statement about all documents", "anchors": ["include/persistence/deserialize.hpp", "include/persistence/serialize.hpp", "include/persistence/deserialize_object.hpp", "include/persistence/deserialize_pointer.hpp", "include/persistence/deserialize_variant.hpp"]}
{"id": "C95", "title": "A change at one place stays at that place", "statement": "If one node of a document is replaced by a node that denotes some value, then what is read changes in the corresponding component only; if one component of a value is replaced, then what is written changes in the corresponding node only.", "quantifier": "every program of types, every document and value, every place in them, every replacement", "why_tests_cant": "tests compare whole documents; that no other component is affected, at any depth, is a statement about all pairs of documents", "anchors": ["include/persistence/deserialize_object.hpp", "include/persistence/deserialize_vector.hpp", "include/persistence/deserialize_tuple.hpp", "include/persistence/deserialize_map.hpp", "include/persistence/deserialize_variant.hpp", "include/persistence/serialize_object.hpp", "include/persistence/serialize_map.hpp"]}
{"id": "C96", "title": "The parser stops at the first event that rules out every document", "statement": "After any sequence of events that the handlers accept, some document begins with these events and is accepted; the parser refuses a document at the first event after which this is no longer possible, neither earlier nor later.", "quantifier": "every program of types, every sequence of events, every state of the variable, every size of handlers that leaves room", "why_tests_cant": "for each rejected document the claim quantifies over all documents with the same beginning; a test can only compare some of them", "anchors": ["include/persistence/parse_base.hpp", "include/persistence/parse_object.hpp", "include/persistence/parse_vector.hpp", "include/persistence/parse_set.hpp", "include/persistence/parse_array.hpp", "include/persistence/parse_map.hpp", "include/persistence/parse_enum.hpp", "include/persistence/parse.hpp"]}
{"id": "C97", "title": "What a failed serialization leaves in the destination", "statement": "When serialize_to_document returns false, the document of the caller is unchanged if the value is a lone number, and otherwise is the complete document of the elements before the first one that cannot be serialized. When write_to_string returns false, the calls made on the writer are exactly those before the first number that is not finite.", "quantifier": "every program of types, every value, every previous content of the destination", "why_tests_cant": "the failure can be at any place of a value of any shape, shared objects included; tests look at the returned value only", "anchors": ["include/persistence/serialize.hpp", "include/persistence/serialize_vector.hpp", "include/persistence/serialize_map.hpp", "include/persistence/serialize_tuple.hpp", "include/persistence/serialize_fundamental.hpp", "include/persistence/write.hpp", "include/persistence/write_object.hpp", "include/persistence/write_vector.hpp"]}
{"id": "C98", "title": "What deserialize leaves in the variable", "statement": "After bool deserialize(document, variable), whether it returned true or false, the variable holds exactly: for containers the elements in front of the first one that is refused; for arrays, variants and unique_ptr the old value if the document is refused; for tuples the components before the refused one, what this one leaves, and the old ones after it; for objects in each member what its own value leaves, independent of the other members. It is always a value of its type.", "quantifier": "every program of types without custom serializers, every document (without references if there are shared pointers), every previous content of the variable", "why_tests_cant": "the failure can be at any place of a document of any shape; tests look at the returned value, not at the variable after a failure", "anchors": ["include/persistence/deserialize.hpp", "include/persistence/deserialize_vector.hpp", "include/persistence/deserialize_array.hpp", "include/persistence/deserialize_set.hpp", "include/persistence/deserialize_map.hpp", "include/persistence/deserialize_tuple.hpp", "include/persistence/deserialize_variant.hpp", "include/persistence/deserialize_object.hpp", "include/persistence/deserialize_pointer.hpp"]}
{"id": "C99", "title": "Nothing of uninitialised memory is in what was read", "statement": "The value that deserialize or parse delivers for an accepted document does not depend on the contents of local variables of the library that were never written (T item; T value; T obj;), nor, except for default members, on the previous contents of the variable.", "quantifier": "every program of types, every document, any two contents of the local variables that agree on the default members of classes", "why_tests_cant": "the contents of uninitialised memory cannot be controlled by a test; they are often zero", "anchors": ["include/persistence/deserialize.hpp", "include/persistence/deserialize_vector.hpp", "include/persistence/deserialize_object.hpp", "include/persistence/deserialize_variant.hpp", "include/persistence/parse.hpp", "include/persistence/parse_object.hpp"]}
{"id": "C100", "title": "What is written depends on the value only", "statement": "The document that serialize makes of a value, and the text that write makes, do not depend on what is in memory behind buffers of bytes, on unspecified characters left by std::to_chars, on the byte order of the host or on the contents of uninitialised variables.", "quantifier": "every value of every type (with shared pointers), any two contents of the surrounding memory", "why_tests_cant": "the contents of the surrounding memory cannot be controlled by a test, and reading past the end of a buffer is mostly harmless in a test", "anchors": ["include/persistence/base64.hpp", "include/persistence/datetime.hpp", "include/persistence/serialize.hpp", "include/persistence/serialize_date.hpp", "include/persistence/write.hpp", "include/persistence/write_date.hpp"]}
{"id": "C101", "title": "Threads that write time stamps do not disturb each other", "statement": "When several threads write or serialize time stamps and dates at the same time, each thread obtains the texts of its own time stamps.", "quantifier": "any number of threads, any number of time stamps and dates each, every interleaving of their accesses to the object that gmtime returns", "why_tests_cant": "a test sees a few interleavings, almost never the few instructions between gmtime and the last field", "anchors": ["include/persistence/datetime.hpp", "include/persistence/serialize_datetime.hpp", "include/persistence/serialize_date.hpp", "include/persistence/write_datetime.hpp", "include/persistence/write_date.hpp"]}
{"id": "C102", "title": "A document that is parsed before main is read as in main", "statement": "A call of parse in the initialisation of a static object has the same outcome as the same call in main: the same documents are accepted, with the same values.", "quantifier": "all classes, all documents and other texts, every state of the initialisation (any subset of the hash tables has been built)", "why_tests_cant": "the order in which static objects of templates are initialised is up to the compiler and linker; a test calls parse in main", "anchors": ["include/persistence/parse_object.hpp", "include/persistence/detail/perfect_hash.hpp", "include/persistence/parse.hpp"]}
{"id": "C103", "title": "Data are not taken for references, nor references for data", "statement": "What is written for a shared object is read as this object also when one of its keys is \"$ref\", and what is written for a repeated object is never read as an object with the key \"$ref\".", "quantifier": "all maps and their keys and values, all types of values, both DOM readers and the streaming parser", "why_tests_cant": "the round-trip tests have no data with the key \"$ref\", and a wrong result is reported as success", "anchors": ["include/persistence/deserialize_pointer.hpp", "include/persistence/serialize_pointer.hpp", "include/persistence/write_pointer.hpp", "include/persistence/parse_pointer.hpp", "include/persistence/deserialize_map.hpp"]}
{"id": "C104", "title": "A reference is written for the same object only", "statement": "A shared pointer is written as a reference only if it points to the same object as an earlier one, so that both are read back; an object of another type at the same address is written in full.", "quantifier": "all pairs of shared objects, all types, all addresses", "why_tests_cant": "the tests have no pointers to an object and to its first member or base; that the contents are lost shows only when the document is read, as undefined behaviour", "anchors": ["include/persistence/detail/output_context.hpp", "include/persistence/detail/references.hpp", "include/persistence/serialize_pointer.hpp", "include/persistence/write_pointer.hpp", "include/persistence/deserialize_pointer.hpp"]}
{"id": "C105", "title": "Headers decide only what compiles", "statement": "Which headers of the library are included decides only which types are supported: a type that is supported with two sets of headers is written and read in the same way with both.", "quantifier": "all types, all sets of headers, all four operations", "why_tests_cant": "the tests include all headers", "anchors": ["include/persistence/serialize_vector.hpp", "include/persistence/serialize_bytes.hpp", "include/persistence/serialize_map.hpp", "include/persistence/write_map.hpp", "include/persistence/deserialize_bytes.hpp", "include/persistence/parse_bytes.hpp", "include/persistence/dictionary.hpp"]}
{"id": "C106", "title": "What can be written can be read and has a schema", "statement": "The serializer, the writer, the reader of documents, the parser and the schema generator support the same types, and take each type for the same thing.", "quantifier": "all types made from the forms in the headers, nested without bound", "why_tests_cant": "a test of a type that is not supported does not compile", "anchors": ["include/persistence/serialize_base.hpp", "include/persistence/deserialize_base.hpp", "include/persistence/parse_base.hpp", "include/persistence/parse_object.hpp", "include/persistence/schema.hpp", "include/persistence/serialize_pointer.hpp", "include/persistence/deserialize_pointer.hpp", "include/persistence/parse_pointer.hpp"]}
{"id": "C107", "title": "A text is written as a string whichever type holds it", "statement": "An object that holds a text, be it std::string, std::string_view, an array of characters or a pointer to characters, is written as the JSON string with this text.", "quantifier": "all texts, all sizes of arrays, both writers", "why_tests_cant": "the tests use string literals only, for which the array is filled by the text", "anchors": ["include/persistence/serialize_string.hpp", "include/persistence/write_string.hpp", "include/persistence/serialize_pointer.hpp", "include/persistence/write_pointer.hpp", "include/persistence/serialize_fundamental.hpp"]}
{"id": "C108", "title": "A change of a shared object changes one node of the document", "statement": "When the content of a shared object changes, the document changes at one node, however many pointers to the object the value has; at no node if it has none.", "quantifier": "all values with any number of shared objects, all contents without shared objects, document and text", "why_tests_cant": "a test compares two documents; here the value, the object and both contents are arbitrary", "anchors": ["include/persistence/serialize_pointer.hpp", "include/persistence/write_pointer.hpp", "include/persistence/detail/output_context.hpp", "include/persistence/detail/references.hpp"]}
{"id": "C109", "title": "Writing takes time in proportion to the size of the object graph", "statement": "The work of writing a value (calls of serialize, and path segments handled for shared objects) is at most a constant times the number of values and pointers in its object graph, each shared object counted once.", "quantifier": "all values with any number of shared objects, with and without numbers that cannot be written, document and text", "why_tests_cant": "a test measures one value; an exponential or quadratic family shows only when the size is a variable", "anchors": ["include/persistence/serialize_pointer.hpp", "include/persistence/write_pointer.hpp", "include/persistence/serialize_object.hpp", "include/persistence/detail/output_context.hpp", "include/persistence/detail/references.hpp", "include/persistence/detail/path.hpp"]}
{"id": "C110", "title": "Generating a schema goes through each class once", "statement": "The number of calls made when the schema of a type is generated is at most the number of types spelled in the type and in the member variables of the classes it uses, each class counted once.", "quantifier": "all types and all non-recursive classes", "why_tests_cant": "a test has a few classes; the number of calls doubles with each class, which shows only when the number of classes is a variable", "anchors": ["include/persistence/schema.hpp"]}
{"id": "C111", "title": "What can be read is valid against the schema", "statement": "If a reader returns a value for a document, the document is valid against the schema generated for the type; with C67, a regular document can be read exactly if it is valid.", "quantifier": "all types without enumerations and with variants whose alternatives are read from different kinds of JSON values, all documents without references, unknown members and repetitions", "why_tests_cant": "a validator and a reader are compared on the documents of a test, which are mostly written by the library itself; documents from elsewhere have members in any order and values at the limits", "anchors": ["include/persistence/schema.hpp", "include/persistence/deserialize_base.hpp", "include/persistence/parse.hpp"]}
{"id": "C112", "title": "Exactly the documents that meet the type are valid", "statement": "Validation against a generated schema comes to a verdict for every document, and a document is valid exactly if it meets the type: values of the kind and range of the type, exactly one alternative of a variant, no two equal elements of a set, members of the class only and all but the optional ones.", "quantifier": "all programs with different class names, all types that have a schema, all documents", "why_tests_cant": "the valid documents of a type are infinitely many, and so are the others; a test validates some of either", "anchors": ["include/persistence/schema.hpp", "include/persistence/schema_utility.hpp"]}
{"id": "C113", "title": "Valid documents stay valid when types are loosened", "statement": "If a type is replaced by one with larger ranges, other alternatives, pointers for objects, vectors for arrays, tuples or sets, or classes with members in another order or with new optional members, every document valid against the old schema is valid against the new one.", "quantifier": "all programs and types related by such changes, all documents", "why_tests_cant": "it relates two versions of a program; a test has only one, and stored documents of earlier versions are few", "anchors": ["include/persistence/schema.hpp"]}
{"id": "C114", "title": "The size of a schema is proportional to the program text", "statement": "A generated schema document has at most a constant number of values for each type that is spelled in the type and in the member variables of its classes, each class counted once.", "quantifier": "all programs and types that have a schema, all schema versions", "why_tests_cant": "a test sees the schemas of small programs; how the size grows with the number of classes and uses is a statement about all programs", "anchors": ["include/persistence/schema.hpp"]}
{"id": "C115", "title": "A document is put together from the documents of its parts", "statement": "If no two parts of a container, tuple or class refer to a common shared object, its document consists of the documents of the elements, entries and members on their own, in their order, where each reference begins with the place of the part; members that fail on their own are left out, and an array fails iff an element fails on its own.", "quantifier": "all programs, all values of all types whose parts have no common shared objects; orders of iteration of unordered maps that depend on the keys only", "why_tests_cant": "a test compares the document of one value with an expected text; that the parts are written independently of what comes before them is a statement about all values and all tables of references", "anchors": ["include/persistence/serialize_vector.hpp", "include/persistence/serialize_tuple.hpp", "include/persistence/serialize_map.hpp", "include/persistence/serialize_object.hpp", "include/persistence/serialize_pointer.hpp"]}
{"id": "C116", "title": "A change of a shared object in the file reaches every pointer to it", "statement": "When the content of a shared object is changed at the one node of the document where it is written, the changed document is read as the value in which every pointer to the object has the new content and everything else is as before, including which pointers point to the same object.", "quantifier": "all programs, all values of all types, any number of pointers to the object, both ways of reading", "why_tests_cant": "a test changes one object in one document; that each of any number of references, at any depth and below any other shared object, yields the new content is a statement about all object graphs", "anchors": ["include/persistence/deserialize_pointer.hpp", "include/persistence/serialize_pointer.hpp", "include/persistence/deserialize_base.hpp"]}
{"id": "C117", "title": "Programs that generate the same schema read the same files", "statement": "The text of a generated schema determines the schema. Two types, perhaps of different programs, with the same generated schema accept exactly the same documents: whatever differs between them (owning or shared pointers, ordered or unordered maps, float or double, the names and the numbering of the C++ types behind pointers) cannot be noticed by whether a file can be read.", "quantifier": "all pairs of programs and types with the same schema, all documents without references, both variants of the DOM reader, all objects that are read into", "why_tests_cant": "a test compares two types on a few documents; that no document at all tells two types of the same schema apart is a statement about all documents, and that no two schemas are written alike about all schemas", "anchors": ["include/persistence/schema.hpp", "include/persistence/schema_utility.hpp", "include/persistence/deserialize_object.hpp", "include/persistence/deserialize_pointer.hpp", "include/persistence/deserialize_fundamental.hpp"]}
{"id": "C118", "title": "A document is read part by part", "statement": "For types without shared pointers, what the throwing DOM reader does with a vector, set, dictionary, array, tuple, map, class or unique pointer follows from what it does with the documents of the parts: if every part can be read by itself, the value is made up of the values of the parts; otherwise the first part that cannot be read decides, its error is the error of the whole document, and the path of the error is the path within the part, below the index or the name of the part. A missing member is an error at the object itself.", "quantifier": "all programs without shared pointers, all types of the parts, all documents (with at most 10^19 elements), all addresses", "why_tests_cant": "a test reads a few nested documents; that the reading of every part is independent of everything around it, and that error paths are put together in the same way at every depth, is a statement about all types and documents", "anchors": ["include/persistence/deserialize_vector.hpp", "include/persistence/deserialize_set.hpp", "include/persistence/deserialize_array.hpp", "include/persistence/deserialize_tuple.hpp", "include/persistence/deserialize_map.hpp", "include/persistence/deserialize_object.hpp", "include/persistence/deserialize_base.hpp"]}
{"id": "C119", "title": "Two documents parsed one after another are parsed like one document with the parts of both", "statement": "bool parse(string, T&) goes on from what the variable contains: parsing a second document into the variable that a first one was parsed into has exactly the outcome (value, refusal, exception) of parsing one document with the parts of the first followed by the parts of the second. Elements are appended to vectors and added to sets; entries of maps and members of classes are read into what is there. The DOM reader, in contrast, clears containers.", "quantifier": "all programs, all vectors, sets, maps and classes, with pointers or not, all pairs of documents, all previous contents, all limits of the handler stack", "why_tests_cant": "a test parses two documents after another; that nothing in the state of the handlers distinguishes the first part of a document from an earlier document is a statement about all documents and types", "anchors": ["include/persistence/parse.hpp", "include/persistence/parse_vector.hpp", "include/persistence/parse_set.hpp", "include/persistence/parse_map.hpp", "include/persistence/parse_object.hpp", "include/persistence/parse_items.hpp"]}
{"id": "C120", "title": "Incomplete files and files with two documents are not read", "statement": "If the text of a value is not written to its end (a proper beginning of what write_to_string or document_to_string produced, also when the rest of the file is filled with NUL characters), every function that reads strings refuses it: both variants of parse and deserialize and string_to_document. The same holds for a text with another text behind it. Top-level numbers are the exception: the beginning of a number can be a number.", "quantifier": "all values and documents that are not numbers, all places where the text can be cut off, all conforming readers, all types, all previous contents", "why_tests_cant": "a test cuts a few texts at a few places; that no beginning of any text is the text of another document, at any depth and with any escapes, is a statement about the whole grammar", "anchors": ["include/persistence/write.hpp", "include/persistence/parse.hpp", "include/persistence/deserialize.hpp", "include/persistence/utility.hpp"]}
{"id": "C121", "title": "The same number is read alike however it is written", "statement": "Documents that differ only in the way in which the same numbers are written (100, 100.0, 1e2) are read alike: the same value, or the same failure at the same place, by deserialize and by the streaming parser, also behind references, in variants and in sets. If a reader accepts both ways to write a number, it stores the same number. Either all of these documents are valid against the generated schema, or none is.", "quantifier": "all documents that differ in their numbers only, all types without integers, all previous contents, both variants of both readers; all number types for single numbers", "why_tests_cant": "a test compares a few numbers; that no path through the readers looks at anything but the value of a number is a statement about all types and documents", "anchors": ["include/persistence/deserialize_fundamental.hpp", "include/persistence/parse_fundamental.hpp", "include/persistence/detail/numeric_traits.hpp", "include/persistence/deserialize_variant.hpp"]}
{"id": "C122", "title": "The alternatives of a variant may be put in another order", "statement": "If the alternatives of std::variant types are put in another order, anywhere in the types of the program, both readers accept and refuse the same documents as before, with the same error at the same place, and the generated schemas have the same valid documents. A document that fits one alternative only is read as this alternative with the same value.", "quantifier": "all programs, all types, all ways to reorder alternatives at any depth, all documents, all previous contents", "why_tests_cant": "a test has one order of the alternatives; that a variant inside a class inside an alternative never makes an outer alternative fit or fail because of its order is a statement about all types", "anchors": ["include/persistence/deserialize_variant.hpp", "include/persistence/schema.hpp"]}
{"id": "C123", "title": "Containers can be exchanged", "statement": "If std::set is replaced by std::vector, a tuple of equal types by std::array, a map by an unordered map, a vector of pairs by a vector of tuples, a value by a pointer to it, or double by float, anywhere in the types of the program, both readers accept the same documents as before and refuse the others with the same error at the same place. All but the first of these replacements leave the documents that are valid against the generated schema as they are.", "quantifier": "all programs, all types, all such replacements at any depth, all documents, all previous contents", "why_tests_cant": "a test has one choice of containers; that no combination of them changes which documents are accepted or which error is reported is a statement about all types and documents", "anchors": ["include/persistence/deserialize_vector.hpp", "include/persistence/deserialize_set.hpp", "include/persistence/deserialize_array.hpp", "include/persistence/deserialize_tuple.hpp", "include/persistence/deserialize_map.hpp", "include/persistence/deserialize_pointer.hpp"]}
{"id": "C124", "title": "The order of the enumerators in a table of names does not matter", "statement": "If the tables of names of the enumerations of a program are put in another order, and no table has a name or an enumerator twice, both writers produce the same documents as before and both readers of documents read the same values, leave the same contents, and throw the same errors at the same places, also with shared objects and references; the parser gives the same verdict and the same value, also on broken texts.", "quantifier": "all programs, all types, all tables, all reorderings, all values, all documents, all previous contents", "why_tests_cant": "a test has one table in one order; that the linear searches in both directions do not depend on the order is a statement about all tables, and that nothing else does about all types", "anchors": ["include/persistence/enum_utility.hpp: EnumConverter", "include/persistence/serialize_enum.hpp", "include/persistence/write_enum.hpp", "include/persistence/deserialize_enum.hpp", "include/persistence/parse_enum.hpp"]}
{"id": "C125", "title": "Classes are known by their members only", "statement": "If the classes of a program are renamed or replaced by others with the same members, both writers produce the same documents as before, both readers of documents read the same values and throw the same errors, also with shared objects and references, and the parser gives the same verdict and value; for writing and parsing, several classes may become one.", "quantifier": "all programs, all replacements of classes, all types, all values, all documents, all broken texts, all previous contents", "why_tests_cant": "a test has one set of classes; that nothing but the list of members of a class has an influence is a statement about all programs", "anchors": ["include/persistence/serialize_object.hpp", "include/persistence/write_object.hpp", "include/persistence/deserialize_object.hpp", "include/persistence/parse_object.hpp", "include/persistence/deserialize_pointer.hpp"]}
{"id": "C126", "title": "The order in which a class lists its members does not matter for reading", "statement": "If the classes of a program list their members in another order, the readers and the streaming parser accept the same documents as before, and the generated schema has the same valid documents.", "quantifier": "all programs, all orders of members, all types, all documents, all previous contents", "why_tests_cant": "a test has one order of members; that no order has an influence on which documents are accepted is a statement about all permutations, types and documents, and the exceptions to it need a document with a wrong member before a correct one", "anchors": ["include/persistence/deserialize_object.hpp: JsonObjectDeserializer", "include/persistence/deserialize_variant.hpp"]}
