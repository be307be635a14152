"""Generates /verif/properties.jsonl (one JSON object per line)."""
import json, os
P = []
def p(id, title, statement, quantifier, why, anchors):
    P.append(dict(id=id, title=title, statement=statement, quantifier=quantifier, why_tests_cant=why, anchors=anchors))
D = "include/persistence/"
# ---------------------------------------------------------------- base64
p("C01", "Base64 round trip",
  "Decoding the text produced by encoding a byte sequence succeeds and returns exactly that byte sequence.",
  "every finite byte sequence, on little- and big-endian hosts",
  "infinitely many inputs; the encoder switches code path on the length modulo 24 and 3, a test samples a handful of lengths",
  [D+"base64.hpp: base64_encode", D+"base64.hpp: base64_decode"])
p("C02", "Base64 output is the RFC 4648 text",
  "The encoder's output is the standard Base64 text: the input bits in order, cut in 6-bit groups, zero-filled, mapped through the standard alphabet and padded with '=' to a multiple of four; it has length 4*ceil(n/3) and does not depend on the machine's byte order nor on what memory follows the input.",
  "every finite byte sequence, both byte orders, every content of the memory behind the buffer",
  "the word-at-a-time fast path reads two bytes beyond the six it encodes; only a proof shows those bytes never influence the output",
  [D+"base64.hpp: base64_encode", D+"base64.hpp: encode_sextet_little_endian", D+"base64.hpp: encode_sextet_big_endian", D+"base64.hpp: encode_triplet"])
p("C03", "Base64 encoder stays inside its input buffer",
  "Encoding a buffer of n bytes only reads offsets 0..n-1 of that buffer.",
  "every buffer length n",
  "an out-of-bounds read of up to two bytes is silent in a normal test run and depends on n modulo 24",
  [D+"base64.hpp: base64_encode (fast_sextets)"])
p("C04", "Base64 decoder accepts exactly padded Base64 text",
  "Decoding succeeds exactly when the text is empty, or its length is a multiple of four and all characters are alphabet characters except that the last one or two may be '='; on success the bytes are the 8-bit regrouping of the 6-bit symbol values.",
  "every finite character sequence",
  "acceptance is a statement about all strings; tests can only sample rejected strings",
  [D+"base64.hpp: base64_decode", D+"base64.hpp: decode_quadruplet", D+"base64.hpp: decode_table"])
p("C05", "Base64 text is canonical",
  "Two different texts never decode to the same bytes; re-encoding a decoded text gives the text back.",
  "every pair of accepted texts",
  "requires the absence of a second preimage over all texts",
  [D+"base64.hpp: base64_decode"])
# ---------------------------------------------------------------- datetime
p("C06", "Timestamp text round trip",
  "Formatting a whole-second timestamp in years 0000 to 9999 and parsing the text gives the same timestamp.",
  "every whole second of the years 0..9999 (3.2e11 instants), any clock resolution whose range contains the instant",
  "too many instants; calendar code fails at century/leap boundaries that samples miss",
  [D+"datetime.hpp: to_iso_datetime", D+"datetime.hpp: parse_datetime", D+"datetime.hpp: make_datetime"])
p("C07", "Timestamp parser accepts exactly the valid UTC date-times",
  "A text is accepted iff it is YYYY-MM-DD, 'T' or blank, HH:MM:SS and 'Z' with decimal digits, an existing Gregorian calendar day, hour<24, minute<60, second<60; the result is the number of seconds of that calendar moment after 1970-01-01T00:00:00Z.",
  "every character sequence",
  "a statement about all strings, including the rejected ones",
  [D+"datetime.hpp: parse_datetime", D+"datetime.hpp: is_valid_date", D+"datetime.hpp: from_digits"])
p("C08", "Timestamp texts sort chronologically",
  "For two timestamps in years 0..9999 the lexicographic order of their texts is the order of their whole seconds.",
  "every pair of timestamps in the range",
  "quadratically many pairs",
  [D+"datetime.hpp: to_iso_datetime"])
p("C09", "Sub-second timestamps lose less than a second and never move forward",
  "Formatting then parsing a timestamp with a fractional second yields an instant at most as late as the original and less than one second away.",
  "every clock tick in range, every clock resolution",
  "rounding direction matters only before the epoch, which samples rarely cover",
  [D+"datetime.hpp: to_iso_datetime"])
p("C10", "Accepted date-times are representable",
  "When the timestamp parser accepts a text, the resulting instant is computed without arithmetic overflow in the clock's representation.",
  "every accepted text, clock resolutions of nanoseconds, 100 nanoseconds and microseconds",
  "overflow is undefined behaviour and is not observed by equality checks on usual dates",
  [D+"datetime.hpp: make_datetime", D+"datetime.hpp: parse_datetime"])
p("C11", "Calendar date round trip and acceptance",
  "Formatting a calendar date of years 0..9999 and parsing it gives the same date; a date text is accepted iff it is YYYY-MM-DD and names an existing day.",
  "every calendar date of the range, every character sequence",
  "3.65 million dates and all strings",
  [D+"datetime.hpp: to_iso_date", D+"datetime.hpp: parse_date", D+"serialize_date.hpp", D+"deserialize_date.hpp"])
p("C12", "Every timestamp is written as a text the parser accepts",
  "The text written for any timestamp is a valid date-time text that parses back to the same second.",
  "every timestamp of the clock, including years before 0 and after 9999",
  "boundary of the four-digit year field",
  [D+"datetime.hpp: AlignedDigitWriter", D+"datetime.hpp: to_iso_datetime"])
# ---------------------------------------------------------------- numbers
p("C13", "Parsed integers are exact or rejected",
  "Parsing a JSON integer into a C++ integer type succeeds iff the mathematical value lies in the range of the type, and then stores exactly that value.",
  "every 8/16/32/64-bit signed or unsigned target, every JSON integer the reader can report",
  "2^64 values times all pairs of widths and signs; sign-conversion mistakes hide at the extremes",
  [D+"detail/numeric_traits.hpp: is_assignable", D+"parse_fundamental.hpp: JsonNumberValueParser"])
p("C14", "Integers parsed into floating-point are exact, and every exactly representable integer is accepted",
  "A JSON integer parsed into float/double is accepted iff it can be represented exactly, and the stored value equals it.",
  "every JSON integer, float and double targets",
  "2^65 integers; the threshold is at powers of two",
  [D+"detail/numeric_traits.hpp: is_assignable"])
p("C15", "Deserialized integers are exact or rejected",
  "Deserializing a DOM number into an integer type succeeds iff the number is an integer within the range of the type, and then stores exactly that value; otherwise the target keeps its value.",
  "every DOM number, every integer type",
  "all 64-bit values and type pairs",
  [D+"deserialize_fundamental.hpp: check_range", D+"deserialize_fundamental.hpp: JsonSignedIntegerDeserializer"])
p("C16", "Streaming and DOM reading agree on numbers",
  "For a numeric target type and a JSON number, parse and deserialize both accept with equal values or both reject.",
  "every JSON number, every arithmetic target type",
  "differential over all numbers",
  [D+"detail/numeric_traits.hpp", D+"deserialize_fundamental.hpp", D+"parse_fundamental.hpp"])
p("C17", "Floating-point values are read without silent loss",
  "When a JSON floating-point number is accepted for a float or double target, the stored value equals the number reported by the reader.",
  "every double value, float and double targets",
  "loss occurs for almost all doubles read into float but tests use values such as 1.5",
  [D+"detail/numeric_traits.hpp: is_assignable", D+"deserialize_fundamental.hpp: JsonFloatDeserializer"])
# ---------------------------------------------------------------- enum
p("C18", "Enumeration names round trip",
  "With a conversion table, reading the written name of an enumerator in the table gives the enumerator back whenever the names are pairwise distinct (aliases allowed), and not for both of two enumerators with the same written name; a name that reads as an enumerator is written again whenever the values are pairwise distinct; first entries win, a name not in the table is rejected, a value not in the table is written as the empty string.",
  "every conversion table, every enumeration value, every text",
  "tables are user supplied and arbitrary",
  [D+"enum_utility.hpp: EnumConverter", D+"serialize_enum.hpp", D+"deserialize_enum.hpp"])
# ---------------------------------------------------------------- perfect hash
p("C19", "Member-name lookup is exact",
  "Once the member lookup table of a class has been built, looking up the i-th member name gives i.",
  "every list of member names, every construction that completes",
  "depends on a seed search over hash values of user-chosen names",
  [D+"detail/perfect_hash.hpp: PerfectHash", D+"parse_object.hpp: JsonObjectParser"])
p("C20", "Lookup of foreign keys is safe and rejected",
  "Looking up an arbitrary key in a built table stays within the table and a key that is not a member name is rejected by the object parser.",
  "every table, every byte string",
  "adversarial keys: all byte strings",
  [D+"detail/perfect_hash.hpp: index", D+"parse_object.hpp: JsonObjectParser::parse(JsonObjectKey)"])
p("C21", "The member lookup table can always be built",
  "For every class with pairwise distinct member names the lookup table construction terminates.",
  "every list of distinct names",
  "non-termination is a property of an unbounded search; a test only shows that particular classes work",
  [D+"detail/perfect_hash.hpp: scatter", D+"detail/perfect_hash.hpp: is_distributable"])
p("C22", "All key-dispatch strategies implement the same lookup",
  "For classes with one, two or more members the key handler selects the member whose name equals the key and rejects every other key.",
  "every class shape, every key",
  "three different implementations, all keys",
  [D+"parse_object.hpp: JsonSoloObjectParser", D+"parse_object.hpp: JsonPairObjectParser", D+"parse_object.hpp: JsonObjectParser"])
# ---------------------------------------------------------------- stack
p("C23", "Handler stack is a stack of disjoint, in-bounds, aligned objects",
  "After any sequence of emplace and pop operations the live objects occupy disjoint, aligned ranges inside the stack's memory, and back() is the most recently emplaced live object.",
  "every operation history, object sizes that are multiples of their alignment (alignment at most that of a pointer)",
  "memory-layout invariant over all histories",
  [D+"detail/polymorphic_stack.hpp: PolymorphicStack"])
p("C24", "Handler stack destroys every object exactly once",
  "Over any history followed by the stack's destruction every constructed object is destroyed exactly once, in reverse order; a rejected emplace or pop changes nothing.",
  "every operation history",
  "history-quantified resource property",
  [D+"detail/polymorphic_stack.hpp: emplace", D+"detail/polymorphic_stack.hpp: pop", D+"detail/polymorphic_stack.hpp: ~PolymorphicStack"])
p("C25", "Boolean parse never throws",
  "parse(text, object) reports every problem through its return value.",
  "every document and type, including deeply nested ones",
  "only documents nested beyond the handler stack's capacity reveal it",
  [D+"parse.hpp: parse", D+"detail/polymorphic_stack.hpp: emplace"])
# ---------------------------------------------------------------- core
p("C26", "DOM round trip",
  "Serializing a value to a DOM and deserializing it reports success and gives an equal value (pointer identity up to renaming), for every supported type built from null, bool, numbers, strings, bytes, timestamps, enumerations, vectors, arrays, sets, maps, tuples, variants whose earlier alternatives reject, smart pointers and classes.",
  "every type in the universe, every value of it, every hash-map iteration order, every previous content of the target",
  "recursive over all types and values",
  [D+"serialize.hpp", D+"deserialize.hpp", D+"serialize_object.hpp", D+"deserialize_object.hpp"])
p("C27", "String round trip through the streaming parser",
  "Writing a value to a string and parsing it with the streaming parser into a fresh object gives an equal value.",
  "every parsable type without shared back-references, every value",
  "recursive over all types and values; the parser is a stateful push-down machine",
  [D+"write.hpp: write_to_string", D+"parse.hpp: parse"])
p("C28", "Both serializers produce the same text",
  "write_to_string(x) equals document_to_string(serialize_to_document(x)), and one succeeds iff the other does.",
  "every type and value, every hash-map iteration order",
  "two independent recursive implementations",
  [D+"write.hpp", D+"serialize.hpp", D+"utility.hpp: document_to_string", D+"serialize_object.hpp: write", D+"write_object.hpp: write"])
p("C29", "Writing fails exactly on non-finite numbers",
  "write_to_string succeeds iff no floating-point number reached from the value is NaN or infinite; on failure the destination string is untouched.",
  "every type and value (all pointers non-null)",
  "error propagation through every container kind at every depth",
  [D+"write_fundamental.hpp: JsonFloatWriter", D+"write.hpp: write_to_string"])
p("C30", "DOM serialization never loses data silently",
  "When serialize_to_document reports success every reached non-optional member is present in the document.",
  "every type and value",
  "error propagation at every depth; failure flags may be dropped in one place",
  [D+"serialize_object.hpp: JsonObjectSerializer::write"])
p("C31", "Objects list exactly the engaged members in declaration order",
  "A serialized class object contains, in declaration order, exactly one member per non-optional member variable and per engaged optional.",
  "every class and object",
  "all member lists and engagement patterns",
  [D+"serialize_object.hpp", D+"write_object.hpp"])
p("C32", "Boolean deserialize reports success only for conforming documents",
  "deserialize(document, object) returns true iff every required member is present and every present member (recursively) has the right form.",
  "every class, every document",
  "a failing member followed by a succeeding one must still fail: all combinations of members",
  [D+"deserialize_object.hpp: JsonObjectDeserializer::operator&"])
p("C33", "Throwing deserialize throws exactly for non-conforming documents",
  "deserialize<T>(document) throws iff the document does not conform to T, and otherwise returns the decoded value.",
  "every type, every document",
  "all documents, all nesting depths",
  [D+"deserialize.hpp: deserialize", D+"deserialize_check.hpp"])
p("C34", "Throwing and boolean deserialize agree",
  "deserialize<T>(document) throws iff deserialize(document, object) returns false, and on success both give the same value.",
  "every type, every document",
  "differential over all documents",
  [D+"deserialize.hpp", D+"deserialize_object.hpp", D+"deserialize_pointer.hpp"])
p("C35", "Error paths locate the offending node",
  "The path reported by a deserialization exception addresses, from the document root, the node that was rejected (for a missing member: the object lacking it).",
  "every type, every rejected document whose keys need no escaping",
  "all nesting shapes",
  [D+"deserialize_check.hpp", D+"detail/deserialize_context.hpp: segments", D+"detail/path.hpp: str"])
p("C36", "Variants read the first matching alternative",
  "Deserializing a variant yields the value of the first alternative type for which the document conforms, and fails iff none conforms.",
  "every list of alternatives, every document",
  "all alternative lists and documents",
  [D+"deserialize_variant.hpp"])
p("C37", "Unknown members",
  "The DOM reader ignores object members that are not member names; the streaming parser rejects them.",
  "every class, every object document, every foreign key and value",
  "all foreign keys and positions",
  [D+"deserialize_object.hpp: find_object_member", D+"parse_object.hpp"])
p("C38", "Member order is irrelevant",
  "Permuting the members of JSON objects with pairwise distinct keys does not change the result of deserialize or parse for a class without shared references, nor whether the document is valid against the generated schema.",
  "every class, every permutation",
  "factorially many orders",
  [D+"deserialize_object.hpp", D+"parse_object.hpp"])
p("C39", "Fixed-size sequences require the exact length",
  "Arrays, pairs and tuples are read only from JSON arrays of exactly their length, by both readers.",
  "every length, element type and document",
  "all lengths",
  [D+"parse_array.hpp: JsonFixedArrayParser", D+"deserialize_array.hpp", D+"deserialize_tuple.hpp", D+"deserialize_check.hpp: check_size"])
p("C40", "Reading does not depend on what the target contained",
  "A successful read leaves the same value in the target whatever it contained before (default members excepted).",
  "every type, document and previous target value",
  "all previous states",
  [D+"deserialize_vector.hpp", D+"deserialize_map.hpp", D+"deserialize_set.hpp", D+"parse_vector.hpp", D+"parse_set.hpp", D+"parse_map.hpp"])
p("C41", "Failed reads of arrays, smart pointers and scalars leave the target unchanged",
  "When deserializing an array, unique pointer, number, string, enumeration or timestamp fails, the target keeps its previous value.",
  "every element type, document, previous value",
  "all failure points",
  [D+"deserialize_array.hpp", D+"deserialize_pointer.hpp", D+"deserialize_fundamental.hpp"])
p("C42", "The push parser computes the recursive meaning of the document",
  "Feeding the events of a document to the handler stack succeeds iff the document matches the type recursively and leaves the recursively decoded value in the target, independent of the surrounding handlers.",
  "every parsable type, every document, every enclosing parser state",
  "state machine with unbounded stack versus a recursive specification",
  [D+"parse_base.hpp", D+"parse_vector.hpp", D+"parse_set.hpp", D+"parse_map.hpp", D+"parse_array.hpp", D+"parse_object.hpp", D+"parse_pointer.hpp"])
p("C43", "The push parser never dispatches to a missing handler",
  "While reading any document no event is delivered when no handler is active, and no pop is attempted on an empty handler stack.",
  "every type, every document, every point of the event stream",
  "crash freedom over all documents",
  [D+"parse_base.hpp: ReaderContext::pop", D+"detail/parse_event.hpp: JsonParseEventDispatcher"])
p("C44", "Named enumerations can be parsed anywhere",
  "A type containing a named enumeration parses every document that the writer produced for it.",
  "every type containing a named enumeration, every value",
  "bug appears only in nested positions",
  [D+"parse_enum.hpp: JsonEnumParser"])
p("C45", "A vector or set parses whenever its elements do",
  "If T parses each document in a list, then vector<T> and set<T> parse the JSON array of these documents.",
  "every element type, every list of documents",
  "all element types; the generic item parser only forwards one token kind",
  [D+"parse_vector.hpp: JsonArrayParser", D+"parse_set.hpp: JsonSetParser", D+"parse_items.hpp"])
# ---------------------------------------------------------------- references
p("C46", "Object sharing survives the DOM round trip",
  "Shared pointers that are equal in the source are equal in the result and distinct ones stay distinct, and the pointed-to values are equal.",
  "every acyclic object graph whose shared objects lie outside sets and under escape-free keys",
  "all graphs",
  [D+"serialize_pointer.hpp", D+"deserialize_pointer.hpp", D+"detail/references.hpp"])
p("C47", "Back-reference paths resolve to the first occurrence",
  "The path text written for a repeated shared object, evaluated as a JSON Pointer on the produced document, addresses the node of the object's first occurrence.",
  "every document position, every key text",
  "all key texts, including '/', '~' and empty keys",
  [D+"detail/path.hpp: str", D+"detail/output_context.hpp: segments", D+"deserialize_pointer.hpp"])
p("C48", "Sharing inside sets",
  "Shared objects first met inside a set can be referred to later in the document.",
  "every object graph with a set of shared pointers",
  "needs a set followed by a back-reference",
  [D+"serialize_set.hpp", D+"write_set.hpp"])
p("C49", "Serialization of shared graphs terminates",
  "Serializing any finite graph of shared objects terminates.",
  "every finite object graph, cyclic ones included",
  "termination is not testable",
  [D+"serialize_pointer.hpp", D+"write_pointer.hpp"])
p("C50", "A shared object is written once",
  "In the produced document each shared object is written in full exactly once; every further occurrence is a {\"$ref\": path} object.",
  "every acyclic object graph",
  "all graphs",
  [D+"serialize_pointer.hpp", D+"write_pointer.hpp"])
# ---------------------------------------------------------------- schema
p("C51", "Written documents satisfy the generated schema",
  "For a supported type the document written for any value validates against the JSON schema generated for the type.",
  "every supported type and value",
  "all types and values",
  [D+"schema.hpp: schema_to_document", D+"write.hpp"])
p("C52", "Generated schema lists exactly the members and required members",
  "The schema of a class lists all member names as properties in order, forbids others, and requires exactly the non-optional ones.",
  "every class",
  "all member lists",
  [D+"schema.hpp: JsonSchemaVisitor"])
p("C53", "Generated schemas are closed",
  "Every reference in a generated schema names an entry of its definitions.",
  "every supported type",
  "all nestings of classes",
  [D+"schema.hpp: JsonSchemaContext"])
p("C54", "Enumeration schemas accept the enumeration's values",
  "The schema generated for an enumeration accepts the documents written for its enumerators.",
  "every enumeration type",
  "all enumerations",
  [D+"schema.hpp: JsonSchemaEnumType", D+"schema.hpp: JsonSchema<T, enum>"])
# ---------------------------------------------------------------- misc
p("C55", "Sets are read as mathematical sets",
  "Reading a JSON array into a set yields a sorted duplicate-free container with exactly the decoded elements, independent of their order and multiplicity.",
  "every array of documents",
  "all permutations and multiplicities",
  [D+"deserialize_set.hpp", D+"parse_set.hpp"])
p("C56", "Duplicate keys are treated alike by both readers",
  "For a JSON object with repeated keys, parse and deserialize give the same result.",
  "every object document",
  "rarely tested corner, all documents",
  [D+"deserialize_object.hpp", D+"deserialize_map.hpp", D+"parse_object.hpp", D+"parse_map.hpp"])
p("C57", "Map keys are preserved exactly",
  "Map keys survive the DOM round trip whatever characters they contain.",
  "every key, including keys with embedded NUL characters",
  "NUL characters in keys",
  [D+"deserialize_map.hpp: JsonDictionaryDeserializer"])
p("C58", "Dictionaries stored as vectors of pairs round trip",
  "A vector of string/value pairs, written as a JSON object, is read back as an equal vector.",
  "every element type and value",
  "asymmetric specialisation choice",
  [D+"dictionary.hpp", D+"serialize_map.hpp", D+"deserialize_vector.hpp"])
p("C59", "The whole input string is read",
  "parse and deserialize accept a string only if the whole string, not just a prefix of it, is a JSON text.",
  "every std::string including ones with embedded NUL",
  "all strings",
  [D+"parse.hpp: detail::parse", D+"deserialize.hpp", D+"utility.hpp: string_to_document"])
p("C60", "Documents own what they refer to",
  "A document returned by string_to_document stays valid after the call.",
  "both overloads, every input",
  "use after free is timing and allocator dependent",
  [D+"utility.hpp: string_to_document"])
p("C61", "The two readers agree",
  "parse and deserialize accept the same documents for a type and read the same value.",
  "every type, every JSON document, every initial value of the target",
  "two independent readers, all documents",
  [D+"parse.hpp", D+"deserialize.hpp", D+"parse_object.hpp", D+"deserialize_object.hpp"])
p("C62", "Schema generation terminates",
  "schema_to_document and schema_to_string return for every type for which they compile.",
  "every type, including classes that refer to themselves through containers or pointers",
  "all class tables; a test can only wait",
  [D+"schema.hpp: JsonSchemaContext", D+"schema.hpp: JsonSchema<T>::type"])
p("C63", "Text and document correspond",
  "The string of write_to_string is a JSON text by RFC 8259 of exactly the document of serialize_to_document; document_to_string of any document is a JSON text of that document only, for strings with any bytes; when writing fails, the string is left unchanged.",
  "all types, all values, all documents, every conversion of floating-point numbers that is faithful on the numbers present",
  "all values and all byte strings; a test compares single texts",
  [D+"write.hpp: write_to_string", D+"utility.hpp: document_to_string", D+"write_base.hpp: StringWriter"])
p("C64", "Parse errors explain the refusal",
  "When the throwing parse refuses a text, the exception names the offset and a non-empty reason: the message of the first value refused, or RapidJSON's text for a syntax error. A refused token is reported with the tokens that are expected in its place, each of which would be accepted, and the token found is none of them.",
  "all types, all texts, all states of the handler stack, all events",
  "all combinations of handler and token",
  [D+"parse_base.hpp: JsonParseHandler::fail", D+"parse_base.hpp: ReaderContext::fail", D+"parse.hpp: T parse(const std::string&)", D+"exception.hpp: JsonParseError", D+"detail/parse_event.hpp"])
p("C65", "parse_number reads exactly the number in the view",
  "parse_number accepts a view exactly if its characters are the text of a number of the type, stores that number, and does not depend on anything outside the view.",
  "all integer and floating-point types, all views, all contents of the memory behind the view",
  "all texts; reading behind the view is invisible in a test with null-terminated strings",
  [D+"number.hpp: parse_number", D+"number.hpp: NumberParser"])
p("C66", "Numbers are stored as the nearest floating-point value",
  "A number read into a float or double is stored as the value of the type nearest to the number in the document as RapidJSON reports it, the even one of two equally near; if the stored value is infinite the number is at least half-way from the greatest value to the next power of two.",
  "all integer and floating-point numbers, float and double, streaming parser and DOM reader",
  "rounding errors of one unit in the last place at rare integers cannot be found by sampling",
  [D+"deserialize_fundamental.hpp: JsonFloatDeserializer", D+"parse_fundamental.hpp: JsonNumberValueParser", D+"detail/numeric_traits.hpp: is_assignable"])
p("C67", "Documents that are valid against the schema can be read",
  "A document that is valid against the schema generated for a type is accepted by deserialize and parse, which read the same value from it.",
  "every type for which a schema is generated, every JSON document, every schema version",
  "all documents; two independent descriptions of the format",
  [D+"schema.hpp: JsonSchema<T>::type", D+"deserialize.hpp", D+"parse.hpp"])
p("C68", "Reading has no undefined behaviour",
  "Whatever the document is, deserialize and parse return true or false or throw an exception; they do not read an object as one of another type, use a value that is no string as a string, or overflow the clock.",
  "every type, every JSON document (also incomplete ones for the parser), every initial content of the target",
  "documents come from outside of the program; undefined behaviour need not show in a test",
  [D+"deserialize_pointer.hpp: JsonDeserializer<std::shared_ptr<T>>", D+"detail/deserialize_context.hpp", D+"parse_object.hpp", D+"datetime.hpp: parse"])
p("C69", "What was read can be written",
  "When a document is reported as read, the value that is left or returned is a complete value of its type, and serializing it is defined and succeeds.",
  "every type without shared pointers, every document, every initial content of the target, all three readers that report success",
  "which values a reader can leave behind depends on all of the document, on the order of its members and on the previous contents",
  [D+"deserialize_object.hpp: JsonObjectDeserializer", D+"parse_object.hpp", D+"serialize_pointer.hpp", D+"write_pointer.hpp"])
p("C70", "Reading is stable under rewriting",
  "When a document is read and the value is written, what is written is read as the same value: a program that rewrites its files changes nothing after the first time.",
  "every type without shared pointers, every document that is accepted, both readers",
  "a round trip test starts from values, not from documents with omitted, unknown or repeated members",
  [D+"deserialize_variant.hpp", D+"deserialize_object.hpp", D+"serialize_object.hpp", D+"write_object.hpp"])
p("C71", "Documents with references denote object graphs, and the readers build exactly them",
  "A document in which every reference points to an object of its type that comes before it denotes one object graph: one object for every node that is read as shared, pointers to the same object exactly where references say so. Both variants of the DOM reader build exactly that graph, for any previous contents, and reject exactly the documents in which some node does not have the form that its type asks for.",
  "every type, every document with references, every previous contents",
  "tests have a few fixed documents with references; which object a reference denotes depends on the table that reading all earlier nodes has left, including alternatives that were given up",
  [D+"deserialize_pointer.hpp", D+"deserialize_object.hpp: JsonObjectDeserializer", D+"deserialize_variant.hpp", D+"deserialize.hpp"])
p("C72", "Classes can evolve",
  "After members that are optional or have defaults have been added to classes, every document of the time before is accepted exactly if it was accepted before and is read as the same value with values for the new members; documents of the time after are still read by the program of the time before.",
  "every change of every class, every type, every document (with references, repeated and unknown members), every previous content, both variants of the DOM reader and the streaming parser",
  "two programs and all documents; a test has one program",
  [D+"deserialize_object.hpp: JsonObjectDeserializer", D+"parse_object.hpp", D+"object_members.hpp", D+"deserialize_variant.hpp"])
p("C73", "Strings of any length are written in full",
  "The strings, binary data and keys that reach the document or the writer are those of the value, whatever their length.",
  "every type, every value, lengths up to the range of std::size_t",
  "conversions of lengths change something only from 4 GiB on",
  [D+"serialize_string.hpp", D+"write_string.hpp", D+"serialize_bytes.hpp", D+"write_bytes.hpp", D+"serialize_map.hpp", D+"write_map.hpp", D+"serialize_pointer.hpp", D+"write_pointer.hpp"])
p("C74", "Reading a document takes time proportional to its size",
  "The number of calls of readers, comparisons of keys and steps of references while a document is read is bounded by a constant of the type times the number of values in the document.",
  "every type, every document, both variants of the DOM reader",
  "tests check results, and measure time for a few documents at most; the bad cases need deep nesting",
  [D+"deserialize.hpp", D+"deserialize_object.hpp", D+"deserialize_variant.hpp", D+"deserialize_pointer.hpp", D+"deserialize_vector.hpp", D+"deserialize_map.hpp", D+"deserialize_tuple.hpp"])
p("C75", "Derived classes are read and written like classes with all the members",
  "A class whose persist function calls that of its base class, as the documentation shows, is read and written like a class that lists all the members itself: the same documents are accepted, with the same values, and the same values are written, with the same texts.",
  "every type with derived classes, every document, every value; both variants of the DOM reader, and the streaming writer",
  "the tests read and write derived classes with complete documents and values only; that a failure in a member of the derived class is lost shows with incomplete ones",
  [D+"deserialize_object.hpp", D+"write_object.hpp", D+"serialize_object.hpp", D+"deserialize_variant.hpp", D+"object.hpp", "README.md"])
p("C76", "schema_to_string writes the schema",
  "Whenever a schema is made for a type, writing it succeeds, and the text is a JSON text of the schema document (version, definitions, members of the schema in the order of persist) and of no other document.",
  "every class table, every type for which the generator returns, every version string",
  "tests compare a handful of schemas with expected texts",
  [D+"schema.hpp: JsonSchemaDocument", D+"schema_utility.hpp", D+"write_object.hpp", D+"write_variant.hpp", D+"write_map.hpp"])
p("C77", "Types can be widened",
  "After types of variables have been replaced by larger ones (a larger integer type, a floating-point type that holds all the integers, double for float, more enumerators, a vector for an array, pair, tuple or set, a pointer for an object and the other way round, a variant for its first alternative, text for time stamps and binary data, optional for required) and members have been moved or removed, every document that was accepted is accepted, and the new values hold the same data.",
  "every pair of class tables related by such changes (also recursive classes), every type, every document, both variants of the DOM reader; every file written by the old program, both readers",
  "two programs and all documents; a test has one program",
  [D+"deserialize_object.hpp: JsonObjectDeserializer", D+"deserialize_variant.hpp", D+"deserialize_vector.hpp", D+"deserialize_array.hpp", D+"deserialize_tuple.hpp", D+"deserialize_fundamental.hpp", D+"deserialize_enum.hpp", D+"deserialize_pointer.hpp"])
p("C78", "Enumerations described with Boost.Describe",
  "With PERSISTENCE_BOOST_DESCRIBE, every declared value of a described enumeration is written as one of its names and is read back by both readers; a string is accepted exactly if it is the name of an enumerator; a value that is not declared is not written as if it were one.",
  "every table of enumerators, also with several names for one value, every value of the enumeration, every JSON value",
  "the project's tests are compiled only with the macro, and try the declared values and two numbers",
  [D+"serialize_enum.hpp: JsonEnumSerializer (PERSISTENCE_BOOST_DESCRIBE)", D+"write_enum.hpp: JsonEnumWriter", D+"deserialize_enum.hpp: JsonEnumDeserializer", D+"parse_enum.hpp: JsonEnumParser"])
p("C79", "Texts are written and accepted in UTF-8",
  "What write_to_string writes is a text in UTF-8 (RFC 8259 section 8.1 requires it), and texts that are not in UTF-8 are refused.",
  "every type, every typed value with any bytes in strings, keys and names, every JSON text with and without escapes",
  "a test tries single strings; the property speaks about all byte sequences, about escapes and surrogate pairs, and about the paths in references that are put together from names",
  [D+"write.hpp: write_to_string", D+"write_string.hpp", D+"write_object.hpp", D+"write_map.hpp", D+"write_pointer.hpp", D+"detail/path.hpp: Path::str", D+"parse.hpp: parse", D+"deserialize.hpp: deserialize"])
p("C80", "Shared objects are written once: size of documents",
  "The number of nodes of the document of a value is the number of nodes of its object graph, in which every shared object counts once: each shared object that can be reached is written exactly once in full and every other pointer to it costs a reference. So documents are linear in the size of the graph, also where the graph has exponentially many paths.",
  "every class table, every typed value over every heap, any number of pointers to an object, every iteration order of unordered maps",
  "tests have a handful of pointers; the count is over all graphs, and the family with 2^n paths cannot be enumerated",
  [D+"serialize_pointer.hpp: JsonSerializer<std::shared_ptr<T>>", D+"detail/references.hpp: ReferenceTable", D+"serialize_object.hpp", D+"serialize_vector.hpp", D+"serialize_map.hpp"])
p("C81", "Which error is thrown, and what its text says",
  "A throwing read of a document that is not acceptable reports the first defect in reading order (arrays and maps by position, classes in the order of their members, required members in their turn): its path is the position of that defect, and there is exactly one such report. The reason in the text is true of the node at that path and of the type that is read there, and the path can be found in the text.",
  "every class table, every type (with shared pointers: every document without references), every document with any number of defects at any depth",
  "tests check single defects in small documents; which of several defects is reported, and that the sentence is true of the node, concerns all combinations",
  [D+"exception.hpp: JsonDeserializationError", D+"deserialize_check.hpp", D+"deserialize_fundamental.hpp", D+"deserialize_datetime.hpp", D+"deserialize_enum.hpp", D+"deserialize_object.hpp", D+"detail/path.hpp"])
p("C82", "What a failed parse leaves in the variable",
  "When bool parse(text, variable) returns false, the variable holds its old value overwritten by exactly what was read before the refused token (or before the end of the text): elements appended to vectors and sets, entries of maps assigned, members assigned, and the element in work as far as it was read. Nothing is removed (vectors, sets and keys of maps keep what they had, members and keys that do not occur in the text keep their values); only the objects of pointers are replaced, and bytes are lost.",
  "every class table with streamable classes, every type, every document (accepted or not), every prefix of its events, every previous value of the variable",
  "tests look at the return value and at the variable after success; what is left after a failure depends on the place of the failure in every combination of containers",
  [D+"parse.hpp: parse", D+"parse_base.hpp", D+"parse_vector.hpp", D+"parse_set.hpp", D+"parse_array.hpp", D+"parse_map.hpp", D+"parse_object.hpp", D+"parse_pointer.hpp", D+"parse_bytes.hpp", D+"base64.hpp"])
p("C83", "Addresses do not matter",
  "The document and the text of a value depend on which pointers share an object, not on the addresses of the objects: the same object graph at any other addresses is written in the same way, byte by byte, so documents are reproducible, and a value that was written and read is written again as the same document. Reading does not depend on the addresses which the allocator returns, nor on where the objects of the target are: the verdict, the exception and the value are the same but for the addresses.",
  "every class table, every type, every value with any sharing, every renaming of addresses that keeps different objects different, every document, both DOM readers and the parser",
  "a test runs with the addresses its allocator happens to return; a dependency on them shows up as a difference between runs",
  [D+"serialize_pointer.hpp: JsonSerializer<std::shared_ptr<T>>", D+"write_pointer.hpp: JsonWriter<std::shared_ptr<T>>", D+"deserialize_pointer.hpp: JsonDeserializer<Exception, std::shared_ptr<T>>", D+"parse_pointer.hpp: JsonParser<std::shared_ptr<T>>", D+"serialize_set.hpp", D+"write_set.hpp", D+"detail/references.hpp"])
p("C84", "Shared pointers are read like unique pointers, each with an object of its own",
  "A document without references is read into a type with shared pointers exactly as into the type with unique pointers in their place: the same verdict, the same exception with the same path, the same value but for the kind of pointer. Every shared pointer that is read gets an object of its own: no two of them share an object, and none shares an object with something that was there before. So sharing comes from references only.",
  "every class table, every type, every document without references (parser: every document, also with repeated keys), every previous value of the variable, both DOM readers and the parser",
  "a test compares a few pairs of types; that objects are never shared by accident concerns all combinations of containers, repeated keys and failed attempts",
  [D+"deserialize_pointer.hpp: JsonDeserializer<Exception, std::shared_ptr<T>>", D+"deserialize_pointer.hpp: JsonDeserializer<Exception, std::unique_ptr<T>>", D+"parse_pointer.hpp: JsonParser<std::shared_ptr<T>>", D+"parse_pointer.hpp: JsonParser<std::unique_ptr<T>>", D+"deserialize_variant.hpp", D+"deserialize_object.hpp", D+"parse_map.hpp"])
p("C85", "What a refused Base64 text leaves in the byte vector",
  "base64_decode decodes straight into the variable. After a refused text the variable holds nothing if the length is not a multiple of four, and otherwise the bytes of the groups of four characters in front of the first group with a wrong character, followed by a zero for each remaining byte. The old bytes are lost, and nothing behind the first wrong group has an influence. A variable with such contents is never taken for a value that was read.",
  "every text, every previous contents, DOM reader and parser",
  "a test sees a few wrong texts and mostly looks at the returned value only; the contents depend on the position of the first error in a text of any length",
  [D+"base64.hpp: base64_decode", D+"deserialize_bytes.hpp", D+"parse_bytes.hpp", D+"deserialize_object.hpp"])
p("C86", "Different values are written differently",
  "Two values of a type have the same document, and the same text, only if they are the same object graph: equal but for the addresses of the shared objects, with pointers to the same object in the one exactly where they are in the other. Conversely the same object graph always has the same document.",
  "every type, every pair of values with any sharing, both serializers",
  "a test compares the documents of a few values; that no two of infinitely many values, with all ways to share objects, collide is a statement about pairs",
  [D+"serialize.hpp", D+"serialize_pointer.hpp", D+"serialize_object.hpp", D+"write_pointer.hpp", D+"detail/path.hpp: Path::str"])
p("C87", "Shared pointers without sharing are written like unique pointers",
  "A value whose shared pointers refer to different objects has the document and the text of the same value with unique pointers: no reference is written, members and elements come in the same order, and the same values are refused.",
  "every type, every value whose shared pointers refer to different objects, both serializers, also values with infinities and NaNs",
  "a test compares the two for a few types; the table of written objects is consulted at every pointer, and its content depends on everything written before",
  [D+"serialize_pointer.hpp", D+"write_pointer.hpp", D+"detail/references.hpp"])
p("C88", "A document can be used after the value is gone",
  "The document made by serialize_to_document is independent of the value: it can be gone through after the value is destroyed or changed, and is the same as before. (Refuted for strings that are views or arrays of characters, whose characters are not copied; proved to hold exactly when no such string is reached from the value.)",
  "every program, every type, every value with any sharing, every choice of string types at every place of the declarations",
  "a test uses the document while the value exists, where all string types give the same result; memory that is gone often still has its old content",
  [D+"serialize_string.hpp", D+"serialize_map.hpp", D+"serialize_pointer.hpp", D+"serialize_object.hpp", D+"serialize.hpp: serialize_to_document"])
p("C89", "A reference means what RFC 6901 says",
  "The text of a reference is taken apart, and followed in the document, as RFC 6901 prescribes for JSON pointers: accepted exactly when it is a JSON pointer, and leading to the value which the RFC defines, or to none; and the references written by the serializer are JSON pointers to the first occurrence of the object. (Refuted twice: an index such as 6000000000 is taken for a small one in huge arrays, and names with a slash or a tilde are written without escapes.)",
  "every text, every document with any duplicate or odd member names",
  "a test follows references that the library has written itself, in documents with ordinary names; escapes, odd indices and overflow do not occur there",
  [D+"deserialize_pointer.hpp", D+"detail/path.hpp", D+"serialize_pointer.hpp"])
p("C90", "The annotations of the schema are true",
  "Where the schema says that a string is a date-time, a date or encoded in base64, the string written is one according to RFC 3339 or RFC 4648, and it denotes the value written; exactly bytes, points in time and dates are described in this way. (Refuted for years beyond 9999, exact criterion proved; and of the texts which the annotation allows to others, exactly those with Z, in capitals, without fraction and leap second are read.)",
  "every value without parts, every clock, every text that RFC 3339 allows with any fraction and offset",
  "validators do not check formats by default; a test has a few dates in the present; the set of texts allowed is infinite",
  [D+"schema.hpp: JsonSchema", D+"datetime.hpp", D+"base64.hpp", D+"serialize_datetime.hpp", D+"serialize_date.hpp", D+"serialize_bytes.hpp"])
p("C91", "Handlers of the streaming parser refer only to living objects",
  "The handlers of the streaming parser keep references into the variable that is filled, or into the temporary storage of a set handler below. No handler ever reads or writes through a reference that has become invalid because a vector has grown, an optional or pointer was set again, or a storage was released; and filling the variable in place gives the same outcome and the same value as handlers which make their objects separately and pass them on when complete.",
  "every type that the parser supports, every state of the variable, every sequence of events, whether or not it is a document, every size of the handlers",
  "invalid references often work by accident; whether a vector moves its elements depends on capacities; the number of nestings is unbounded",
  [D+"parse_base.hpp", D+"parse_vector.hpp", D+"parse_set.hpp", D+"parse_array.hpp", D+"parse_map.hpp", D+"parse_object.hpp", D+"parse_pointer.hpp", D+"parse.hpp"])
p("C92", "What is read is no larger than what it is read from",
  "The number of elements and entries in the containers of a value that is read, with the bytes of its strings, keys and byte vectors, is bounded by the length of the text plus what was in the variable before. This holds for the values returned, at every moment of a parse, and for what is left in the variable when reading fails: no short text makes the library store a large value.",
  "DOM reader: every type and every document without references, or with references if at most one alternative of a variant is an array and one an object (objects that are referred to several times are counted once); every variable, both variants; parser: every type, every sequence of events, every typed or empty variable; classes whose members have distinct names (DOM reader) and are not initialised with elements or text",
  "tests read a few documents; a blow-up needs a particular combination of nesting, repeated keys, refused alternatives or pre-filled variables",
  [D+"deserialize_vector.hpp", D+"deserialize_object.hpp", D+"deserialize_map.hpp", D+"parse_vector.hpp", D+"parse_set.hpp", D+"parse_map.hpp", D+"parse_object.hpp", D+"deserialize.hpp", D+"parse.hpp", D+"base64.hpp"])
p("C93", "The iteration order of unordered maps does not matter",
  "The documents of one value under two iteration orders of its unordered maps differ only in the order of members with distinct names; whether the value can be written, and how many nodes its document has, does not depend on the order; each of the documents is read back as the value, under either order.",
  "every type, every well-typed value, every two orders that visit each key exactly once",
  "the order depends on the hash function, the number of buckets and the history of the map: a test sees the order of one library on one day",
  [D+"serialize_map.hpp", D+"write_map.hpp", D+"serialize_pointer.hpp", D+"detail/references.hpp"])
p("C94", "Recursion is bounded",
  "For each type there is a bound on how many calls of serialize and deserialize are active at the same time, whatever the value or the document is; the depth never exceeds the levels of the value, nor the levels of the document times the longest row of pointers and variants in a type.",
  "every program of types, every document and every value, both variants of deserialize",
  "stack overflow by nested input needs documents far deeper than tests use; the bound is a statement about all documents",
  [D+"deserialize.hpp", D+"serialize.hpp", D+"deserialize_object.hpp", D+"deserialize_pointer.hpp", D+"deserialize_variant.hpp"])
p("C95", "A change at one place stays at that place",
  "If one node of a document is replaced by a node that denotes some value, then what is read changes in the corresponding component only; if one component of a value is replaced, then what is written changes in the corresponding node only.",
  "every program of types, every document and value, every place in them, every replacement",
  "tests compare whole documents; that no other component is affected, at any depth, is a statement about all pairs of documents",
  [D+"deserialize_object.hpp", D+"deserialize_vector.hpp", D+"deserialize_tuple.hpp", D+"deserialize_map.hpp", D+"deserialize_variant.hpp", D+"serialize_object.hpp", D+"serialize_map.hpp"])
p("C96", "The parser stops at the first event that rules out every document",
  "After any sequence of events that the handlers accept, some document begins with these events and is accepted; the parser refuses a document at the first event after which this is no longer possible, neither earlier nor later.",
  "every program of types, every sequence of events, every state of the variable, every size of handlers that leaves room",
  "for each rejected document the claim quantifies over all documents with the same beginning; a test can only compare some of them",
  [D+"parse_base.hpp", D+"parse_object.hpp", D+"parse_vector.hpp", D+"parse_set.hpp", D+"parse_array.hpp", D+"parse_map.hpp", D+"parse_enum.hpp", D+"parse.hpp"])
p("C97", "What a failed serialization leaves in the destination",
  "When serialize_to_document returns false, the document of the caller is unchanged if the value is a lone number, and otherwise is the complete document of the elements before the first one that cannot be serialized. When write_to_string returns false, the calls made on the writer are exactly those before the first number that is not finite.",
  "every program of types, every value, every previous content of the destination",
  "the failure can be at any place of a value of any shape, shared objects included; tests look at the returned value only",
  [D+"serialize.hpp", D+"serialize_vector.hpp", D+"serialize_map.hpp", D+"serialize_tuple.hpp", D+"serialize_fundamental.hpp", D+"write.hpp", D+"write_object.hpp", D+"write_vector.hpp"])
p("C98", "What deserialize leaves in the variable",
  "After bool deserialize(document, variable), whether it returned true or false, the variable holds exactly: for containers the elements in front of the first one that is refused; for arrays, variants and unique_ptr the old value if the document is refused; for tuples the components before the refused one, what this one leaves, and the old ones after it; for objects in each member what its own value leaves, independent of the other members. It is always a value of its type.",
  "every program of types without custom serializers, every document (without references if there are shared pointers), every previous content of the variable",
  "the failure can be at any place of a document of any shape; tests look at the returned value, not at the variable after a failure",
  [D+"deserialize.hpp", D+"deserialize_vector.hpp", D+"deserialize_array.hpp", D+"deserialize_set.hpp", D+"deserialize_map.hpp", D+"deserialize_tuple.hpp", D+"deserialize_variant.hpp", D+"deserialize_object.hpp", D+"deserialize_pointer.hpp"])
p("C99", "Nothing of uninitialised memory is in what was read",
  "The value that deserialize or parse delivers for an accepted document does not depend on the contents of local variables of the library that were never written (T item; T value; T obj;), nor, except for default members, on the previous contents of the variable.",
  "every program of types, every document, any two contents of the local variables that agree on the default members of classes",
  "the contents of uninitialised memory cannot be controlled by a test; they are often zero",
  [D+"deserialize.hpp", D+"deserialize_vector.hpp", D+"deserialize_object.hpp", D+"deserialize_variant.hpp", D+"parse.hpp", D+"parse_object.hpp"])
p("C100", "What is written depends on the value only",
  "The document that serialize makes of a value, and the text that write makes, do not depend on what is in memory behind buffers of bytes, on unspecified characters left by std::to_chars, on the byte order of the host or on the contents of uninitialised variables.",
  "every value of every type (with shared pointers), any two contents of the surrounding memory",
  "the contents of the surrounding memory cannot be controlled by a test, and reading past the end of a buffer is mostly harmless in a test",
  [D+"base64.hpp", D+"datetime.hpp", D+"serialize.hpp", D+"serialize_date.hpp", D+"write.hpp", D+"write_date.hpp"])
p("C101", "Threads that write time stamps do not disturb each other",
  "When several threads write or serialize time stamps and dates at the same time, each thread obtains the texts of its own time stamps.",
  "any number of threads, any number of time stamps and dates each, every interleaving of their accesses to the object that gmtime returns",
  "a test sees a few interleavings, almost never the few instructions between gmtime and the last field",
  [D+"datetime.hpp", D+"serialize_datetime.hpp", D+"serialize_date.hpp", D+"write_datetime.hpp", D+"write_date.hpp"])
p("C102", "A document that is parsed before main is read as in main",
  "A call of parse in the initialisation of a static object has the same outcome as the same call in main: the same documents are accepted, with the same values.",
  "all classes, all documents and other texts, every state of the initialisation (any subset of the hash tables has been built)",
  "the order in which static objects of templates are initialised is up to the compiler and linker; a test calls parse in main",
  [D+"parse_object.hpp", D+"detail/perfect_hash.hpp", D+"parse.hpp"])
p("C103", "Data are not taken for references, nor references for data",
  "What is written for a shared object is read as this object also when one of its keys is \"$ref\", and what is written for a repeated object is never read as an object with the key \"$ref\".",
  "all maps and their keys and values, all types of values, both DOM readers and the streaming parser",
  "the round-trip tests have no data with the key \"$ref\", and a wrong result is reported as success",
  [D+"deserialize_pointer.hpp", D+"serialize_pointer.hpp", D+"write_pointer.hpp", D+"parse_pointer.hpp", D+"deserialize_map.hpp"])
p("C104", "A reference is written for the same object only",
  "A shared pointer is written as a reference only if it points to the same object as an earlier one, so that both are read back; an object of another type at the same address is written in full.",
  "all pairs of shared objects, all types, all addresses",
  "the tests have no pointers to an object and to its first member or base; that the contents are lost shows only when the document is read, as undefined behaviour",
  [D+"detail/output_context.hpp", D+"detail/references.hpp", D+"serialize_pointer.hpp", D+"write_pointer.hpp", D+"deserialize_pointer.hpp"])
p("C105", "Headers decide only what compiles",
  "Which headers of the library are included decides only which types are supported: a type that is supported with two sets of headers is written and read in the same way with both.",
  "all types, all sets of headers, all four operations",
  "the tests include all headers",
  [D+"serialize_vector.hpp", D+"serialize_bytes.hpp", D+"serialize_map.hpp", D+"write_map.hpp", D+"deserialize_bytes.hpp", D+"parse_bytes.hpp", D+"dictionary.hpp"])
p("C106", "What can be written can be read and has a schema",
  "The serializer, the writer, the reader of documents, the parser and the schema generator support the same types, and take each type for the same thing.",
  "all types made from the forms in the headers, nested without bound",
  "a test of a type that is not supported does not compile",
  [D+"serialize_base.hpp", D+"deserialize_base.hpp", D+"parse_base.hpp", D+"parse_object.hpp", D+"schema.hpp", D+"serialize_pointer.hpp", D+"deserialize_pointer.hpp", D+"parse_pointer.hpp"])
p("C107", "A text is written as a string whichever type holds it",
  "An object that holds a text, be it std::string, std::string_view, an array of characters or a pointer to characters, is written as the JSON string with this text.",
  "all texts, all sizes of arrays, both writers",
  "the tests use string literals only, for which the array is filled by the text",
  [D+"serialize_string.hpp", D+"write_string.hpp", D+"serialize_pointer.hpp", D+"write_pointer.hpp", D+"serialize_fundamental.hpp"])
p("C108", "A change of a shared object changes one node of the document",
  "When the content of a shared object changes, the document changes at one node, however many pointers to the object the value has; at no node if it has none.",
  "all values with any number of shared objects, all contents without shared objects, document and text",
  "a test compares two documents; here the value, the object and both contents are arbitrary",
  [D+"serialize_pointer.hpp", D+"write_pointer.hpp", D+"detail/output_context.hpp", D+"detail/references.hpp"])
p("C109", "Writing takes time in proportion to the size of the object graph",
  "The work of writing a value (calls of serialize, and path segments handled for shared objects) is at most a constant times the number of values and pointers in its object graph, each shared object counted once.",
  "all values with any number of shared objects, with and without numbers that cannot be written, document and text",
  "a test measures one value; an exponential or quadratic family shows only when the size is a variable",
  [D+"serialize_pointer.hpp", D+"write_pointer.hpp", D+"serialize_object.hpp", D+"detail/output_context.hpp", D+"detail/references.hpp", D+"detail/path.hpp"])
p("C110", "Generating a schema goes through each class once",
  "The number of calls made when the schema of a type is generated is at most the number of types spelled in the type and in the member variables of the classes it uses, each class counted once.",
  "all types and all non-recursive classes",
  "a test has a few classes; the number of calls doubles with each class, which shows only when the number of classes is a variable",
  [D+"schema.hpp"])
p("C111", "What can be read is valid against the schema",
  "If a reader returns a value for a document, the document is valid against the schema generated for the type; with C67, a regular document can be read exactly if it is valid.",
  "all types without enumerations and with variants whose alternatives are read from different kinds of JSON values, all documents without references, unknown members and repetitions",
  "a validator and a reader are compared on the documents of a test, which are mostly written by the library itself; documents from elsewhere have members in any order and values at the limits",
  [D+"schema.hpp", D+"deserialize_base.hpp", D+"parse.hpp"])
p("C112", "Exactly the documents that meet the type are valid",
  "Validation against a generated schema comes to a verdict for every document, and a document is valid exactly if it meets the type: values of the kind and range of the type, exactly one alternative of a variant, no two equal elements of a set, members of the class only and all but the optional ones.",
  "all programs with different class names, all types that have a schema, all documents",
  "the valid documents of a type are infinitely many, and so are the others; a test validates some of either",
  [D+"schema.hpp", D+"schema_utility.hpp"])
p("C113", "Valid documents stay valid when types are loosened",
  "If a type is replaced by one with larger ranges, other alternatives, pointers for objects, vectors for arrays, tuples or sets, or classes with members in another order or with new optional members, every document valid against the old schema is valid against the new one.",
  "all programs and types related by such changes, all documents",
  "it relates two versions of a program; a test has only one, and stored documents of earlier versions are few",
  [D+"schema.hpp"])
p("C114", "The size of a schema is proportional to the program text",
  "A generated schema document has at most a constant number of values for each type that is spelled in the type and in the member variables of its classes, each class counted once.",
  "all programs and types that have a schema, all schema versions",
  "a test sees the schemas of small programs; how the size grows with the number of classes and uses is a statement about all programs",
  [D+"schema.hpp"])
p("C115", "A document is put together from the documents of its parts",
  "If no two parts of a container, tuple or class refer to a common shared object, its document consists of the documents of the elements, entries and members on their own, in their order, where each reference begins with the place of the part; members that fail on their own are left out, and an array fails iff an element fails on its own.",
  "all programs, all values of all types whose parts have no common shared objects; orders of iteration of unordered maps that depend on the keys only",
  "a test compares the document of one value with an expected text; that the parts are written independently of what comes before them is a statement about all values and all tables of references",
  [D+"serialize_vector.hpp", D+"serialize_tuple.hpp", D+"serialize_map.hpp", D+"serialize_object.hpp", D+"serialize_pointer.hpp"])
p("C116", "A change of a shared object in the file reaches every pointer to it",
  "When the content of a shared object is changed at the one node of the document where it is written, the changed document is read as the value in which every pointer to the object has the new content and everything else is as before, including which pointers point to the same object.",
  "all programs, all values of all types, any number of pointers to the object, both ways of reading",
  "a test changes one object in one document; that each of any number of references, at any depth and below any other shared object, yields the new content is a statement about all object graphs",
  [D+"deserialize_pointer.hpp", D+"serialize_pointer.hpp", D+"deserialize_base.hpp"])
p("C117", "Programs that generate the same schema read the same files",
  "The text of a generated schema determines the schema. Two types, perhaps of different programs, with the same generated schema accept exactly the same documents: whatever differs between them (owning or shared pointers, ordered or unordered maps, float or double, the names and the numbering of the C++ types behind pointers) cannot be noticed by whether a file can be read.",
  "all pairs of programs and types with the same schema, all documents without references, both variants of the DOM reader, all objects that are read into",
  "a test compares two types on a few documents; that no document at all tells two types of the same schema apart is a statement about all documents, and that no two schemas are written alike about all schemas",
  [D+"schema.hpp", D+"schema_utility.hpp", D+"deserialize_object.hpp", D+"deserialize_pointer.hpp", D+"deserialize_fundamental.hpp"])
p("C118", "A document is read part by part",
  "For types without shared pointers, what the throwing DOM reader does with a vector, set, dictionary, array, tuple, map, class or unique pointer follows from what it does with the documents of the parts: if every part can be read by itself, the value is made up of the values of the parts; otherwise the first part that cannot be read decides, its error is the error of the whole document, and the path of the error is the path within the part, below the index or the name of the part. A missing member is an error at the object itself.",
  "all programs without shared pointers, all types of the parts, all documents (with at most 10^19 elements), all addresses",
  "a test reads a few nested documents; that the reading of every part is independent of everything around it, and that error paths are put together in the same way at every depth, is a statement about all types and documents",
  [D+"deserialize_vector.hpp", D+"deserialize_set.hpp", D+"deserialize_array.hpp", D+"deserialize_tuple.hpp", D+"deserialize_map.hpp", D+"deserialize_object.hpp", D+"deserialize_base.hpp"])
p("C119", "Two documents parsed one after another are parsed like one document with the parts of both",
  "bool parse(string, T&) goes on from what the variable contains: parsing a second document into the variable that a first one was parsed into has exactly the outcome (value, refusal, exception) of parsing one document with the parts of the first followed by the parts of the second. Elements are appended to vectors and added to sets; entries of maps and members of classes are read into what is there. The DOM reader, in contrast, clears containers.",
  "all programs, all vectors, sets, maps and classes, with pointers or not, all pairs of documents, all previous contents, all limits of the handler stack",
  "a test parses two documents after another; that nothing in the state of the handlers distinguishes the first part of a document from an earlier document is a statement about all documents and types",
  [D+"parse.hpp", D+"parse_vector.hpp", D+"parse_set.hpp", D+"parse_map.hpp", D+"parse_object.hpp", D+"parse_items.hpp"])
p("C120", "Incomplete files and files with two documents are not read",
  "If the text of a value is not written to its end (a proper beginning of what write_to_string or document_to_string produced, also when the rest of the file is filled with NUL characters), every function that reads strings refuses it: both variants of parse and deserialize and string_to_document. The same holds for a text with another text behind it. Top-level numbers are the exception: the beginning of a number can be a number.",
  "all values and documents that are not numbers, all places where the text can be cut off, all conforming readers, all types, all previous contents",
  "a test cuts a few texts at a few places; that no beginning of any text is the text of another document, at any depth and with any escapes, is a statement about the whole grammar",
  [D+"write.hpp", D+"parse.hpp", D+"deserialize.hpp", D+"utility.hpp"])
p("C121", "The same number is read alike however it is written",
  "Documents that differ only in the way in which the same numbers are written (100, 100.0, 1e2) are read alike: the same value, or the same failure at the same place, by deserialize and by the streaming parser, also behind references, in variants and in sets. If a reader accepts both ways to write a number, it stores the same number. Either all of these documents are valid against the generated schema, or none is.",
  "all documents that differ in their numbers only, all types without integers, all previous contents, both variants of both readers; all number types for single numbers",
  "a test compares a few numbers; that no path through the readers looks at anything but the value of a number is a statement about all types and documents",
  [D+"deserialize_fundamental.hpp", D+"parse_fundamental.hpp", D+"detail/numeric_traits.hpp", D+"deserialize_variant.hpp"])
p("C122", "The alternatives of a variant may be put in another order",
  "If the alternatives of std::variant types are put in another order, anywhere in the types of the program, both readers accept and refuse the same documents as before, with the same error at the same place, and the generated schemas have the same valid documents. A document that fits one alternative only is read as this alternative with the same value.",
  "all programs, all types, all ways to reorder alternatives at any depth, all documents, all previous contents",
  "a test has one order of the alternatives; that a variant inside a class inside an alternative never makes an outer alternative fit or fail because of its order is a statement about all types",
  [D+"deserialize_variant.hpp", D+"schema.hpp"])
p("C123", "Containers can be exchanged",
  "If std::set is replaced by std::vector, a tuple of equal types by std::array, a map by an unordered map, a vector of pairs by a vector of tuples, a value by a pointer to it, or double by float, anywhere in the types of the program, both readers accept the same documents as before and refuse the others with the same error at the same place. All but the first of these replacements leave the documents that are valid against the generated schema as they are.",
  "all programs, all types, all such replacements at any depth, all documents, all previous contents",
  "a test has one choice of containers; that no combination of them changes which documents are accepted or which error is reported is a statement about all types and documents",
  [D+"deserialize_vector.hpp", D+"deserialize_set.hpp", D+"deserialize_array.hpp", D+"deserialize_tuple.hpp", D+"deserialize_map.hpp", D+"deserialize_pointer.hpp"])
p("C124", "The order of the enumerators in a table of names does not matter",
  "If the tables of names of the enumerations of a program are put in another order, and no table has a name or an enumerator twice, both writers produce the same documents as before and both readers of documents read the same values, leave the same contents, and throw the same errors at the same places, also with shared objects and references; the parser gives the same verdict and the same value, also on broken texts.",
  "all programs, all types, all tables, all reorderings, all values, all documents, all previous contents",
  "a test has one table in one order; that the linear searches in both directions do not depend on the order is a statement about all tables, and that nothing else does about all types",
  [D+"enum_utility.hpp: EnumConverter", D+"serialize_enum.hpp", D+"write_enum.hpp", D+"deserialize_enum.hpp", D+"parse_enum.hpp"])
p("C125", "Classes are known by their members only",
  "If the classes of a program are renamed or replaced by others with the same members, both writers produce the same documents as before, both readers of documents read the same values and throw the same errors, also with shared objects and references, and the parser gives the same verdict and value; for writing and parsing, several classes may become one.",
  "all programs, all replacements of classes, all types, all values, all documents, all broken texts, all previous contents",
  "a test has one set of classes; that nothing but the list of members of a class has an influence is a statement about all programs",
  [D+"serialize_object.hpp", D+"write_object.hpp", D+"deserialize_object.hpp", D+"parse_object.hpp", D+"deserialize_pointer.hpp"])
p("C126", "The order in which a class lists its members does not matter for reading",
  "If the classes of a program list their members in another order, the readers and the streaming parser accept the same documents as before, and the generated schema has the same valid documents.",
  "all programs, all orders of members, all types, all documents, all previous contents",
  "a test has one order of members; that no order has an influence on which documents are accepted is a statement about all permutations, types and documents, and the exceptions to it need a document with a wrong member before a correct one",
  [D+"deserialize_object.hpp: JsonObjectDeserializer", D+"deserialize_variant.hpp"])
here = os.path.dirname(os.path.abspath(__file__))
with open(os.path.join(here, "..", "properties.jsonl"), "w") as f:
    for x in P:
        f.write(json.dumps(x) + "\n")
print(len(P))
