# Formal model of hunyadi/json-persistence

Everything below /verif/lean is Lean 4 (4.33.0) with single Mathlib modules.
The C++ sources in /repo are read as text only; nothing is executed.

## 1. What is modelled, and where

| Lean module (lean/Verif/…) | models (/repo/include/persistence/…) |
|---|---|
| `Base64` | base64.hpp (whole file): triplet, word-at-a-time big/little endian fast path, reads of memory, decoder |
| `DateTime` | datetime.hpp: validity, parsing, formatting, `make_datetime`, civil-calendar arithmetic |
| `Threads` | datetime.hpp:247-296 in several threads: steps of the calls, schedules |
| `StaticInit` | the hash tables of parse_object.hpp:206-207 before their initialisation; that `names` is initialised by a constant expression, and that compilers may build the table earlier, follows from the C++ standard and is not modelled |
| `Numeric`, `Decimal` | detail/numeric_traits.hpp, numeric part of deserialize_fundamental.hpp / parse_fundamental.hpp; `std::to_chars` for integers |
| `EnumConv` | enum_utility.hpp |
| `BitSet`, `PerfectHash` | detail/bitset.hpp, detail/perfect_hash.hpp, key dispatch of parse_object.hpp |
| `PolyStack` | detail/polymorphic_stack.hpp |
| `Core` | the universe of C++ types (`Ty`), classes (`Class`, `Member`: object.hpp, object_members.hpp), values (`Val`), JSON trees (`Json`), segments |
| `Path` | detail/segment.hpp, detail/path.hpp, JSON Pointer evaluation (RapidJSON contract) |
| `Leaf` | (de)serialization of types without components: *_fundamental, *_string, *_bytes, *_date, *_datetime, *_enum |
| `Dispatch` | the choice of specialisations of the five templates by type and by the headers that are included; classes before the choice; objects that hold texts |
| `Serialize` | serialize.hpp, serialize_*.hpp, detail/output_context.hpp, detail/references.hpp, dictionary.hpp |
| `Write` | write.hpp, write_*.hpp |
| `Deserialize` | deserialize.hpp, deserialize_*.hpp, detail/deserialize_context.hpp, exception.hpp |
| `Parse` | parse.hpp, parse_*.hpp, detail/parse_event.hpp: handlers on the handler stack, one event at a time |
| `Message` (first part) | the texts of `JsonDeserializationError` (exception.hpp, the reasons in deserialize_*.hpp); `FirstBad`, `Located` are the specification |
| `ParseLeft` (first part) | the variable of the caller after a refused token or an early end of the text: parse.hpp `parse(const std::string&, T&)`, the handlers of parse_*.hpp |
| `ParseError` (first part) | the messages of the handlers, exception.hpp: `JsonParseError` |
| `NumberText` (first part) | number.hpp (with `from_chars` and `strtod` from the standards) |
| `Schema` | schema.hpp, schema_utility.hpp |
| `Graph` | the serializers again, on object graphs that may be cyclic |
| `Text`, `TextIO` | texts (RapidJSON contract); the overloads for `std::string`: write.hpp, parse.hpp, deserialize.hpp, utility.hpp |

Specifications, written without the model functions:

| module | specifies |
|---|---|
| `Base64Spec` | RFC 4648 by bit strings |
| `DateTimeLemmas` (first part) | the proleptic Gregorian calendar |
| `Typing` | which values a C++ type has (`HasTy`) |
| `Render` | which document shows a value (`Shows`) |
| `ReadSpec` | which document conforms to a type and what it denotes (`Decodes`, `Fails`) |
| `ParseSpec` | what a document means for the streaming parser (`meaning`) |
| `SchemaSpec` | validation against a JSON schema (draft 2020-12) |
| `Props/Rounding` (`Correct`) | what IEEE 754 requires of a conversion, over the rational numbers |
| `Strtod` (first part) | the texts that `strtod` reads (C11 7.22.1.3) |
| `Containers` | contents of sets and maps |
| `ReadExact` (`Refused`) | which documents each variant of the DOM reader refuses, masked members included (specification) |
| `ReadShared` (first part) | types with `std::unique_ptr` in place of `std::shared_ptr` (`Ty.lower`) |
| `Safe` (first part) | which nodes of a document are read as which types (`NodeAt`), sound references (`SoundRefs`) |
| `ReadTyped` (first part) | shapes of documents that types are read from and written as (`takes`, `gives`, `Apart`), what the targets hold (`Ready`, `Furnished`), `InReach`, `Stable` |
| `Conveys` (first part) | which object graph a document with references denotes (`Conveys`) |
| `Narrow` (first part) | the two serializers once more, with all conversions of lengths to `rapidjson::SizeType`; `cut` and `Short` are the specification |
| `Cost` (first part) | a counter of calls of readers, comparisons of keys and steps of references beside `deser`; `nodes`, `fan`, `opens`, `Bounded` are the specification |
| `Derived` (first part) | reading and writing once more for classes with base classes, whose failures the copy of the archive keeps to itself; the flat model is the specification |
| `SchemaWrite` (first part) | the classes of schema.hpp as a program, the objects that the generator makes, `schema_to_string` |
| `Evolve` (first part) | two programs that differ in the members of classes (`Kin`, `Adds`), values that agree in the members of the older one (`Grown`), documents without the new members (`Unused`, `NoKeys`) |
| `Describe` | enumerations described with Boost.Describe: the branches of the four enum headers, `enum_to_string`, `enum_from_string` |
| `Widen` (first part) | types that take the place of other types (`Widens`, `Replaces`), what becomes of the values (`Carried`) |
| `Lend` (first part) | the serializer of documents once more, with the memory in which each string lies; `Place` and `Storage` tell the string types apart, `Lends` is the specification |
| `Rfc6901` (first part) | JSON pointers as defined by RFC 6901: `Token` and `Pointer` for the syntax, `Index` for array indices, `At` for the value a pointer leads to |
| `ParseMem` | the streaming parser once more, with the memory that its handlers refer to: the variable, the storage of set handlers, references as paths, and which writes make which references invalid |
| `Order` (first part) | the same program with another order of its unordered maps (`Env.iterating`); `Permuted` is the specification |
| `Survive` (first part) | which values the DOM serializer accepts (`survives`) and what their documents consist of (`Remains`): specification |
| `Depth` (first part) | how many calls of `deserialize` and `serialize` are active at the same time (`depth`, `sdepth`): model beside `deser` and `ser`; levels of types, documents and values: specification |
| `SerLeft` (first part) | the document and the writer of the caller after a serialization that may have failed (serialize.hpp, write.hpp); `trimmed` and `patch` are the specification |
| `Breaks` (first part) | nodes that do not have the form that is asked for (`Misfits`), references to anything but earlier objects of their types (`Dangles`) |

The other modules are lemmas: `Base64Lemmas`, `Base64Dec`, `DateTimeLemmas`, `NumericLemmas`, `Rounding`, `PerfectHashLemmas`,
`PerfectHashTerm`, `WriteLemmas`, `WriteTotal`, `RenderLemmas`, `RoundTrip`, `ReadPure`, `ReadLemmas`, `ReadMore`,
`ReadShared`, `ReadExact`, `ParsePure`, `ParseLemmas`, `ParseMeaning`, `ParseFacts`, `ParseMore`, `ParseMemLemmas`, `ParseViable`, `SerLeft`, `ReadLeft`, `Uninit`, `UninitShared`, `Edit`, `Size`, `SizeShared`, `SizeParse`, `SizeText`, `ParseBack`, `Agree`,
`SchemaLemmas`, `SchemaTerm`, `SchemaSound`, `SchemaValid`, `SchemaInv`, `SchemaAccepts`, `Safe`, `ParseSafe`, `ReadTyped`, `Conveys`, `ConveysTyped`, `ConveysPlain`, `Breaks`, `Evolve`, `EvolveMore`, `Narrow`, `Cost`, `Derived`, `DerivedWrite`, `SchemaWrite`, `Widen`, `WidenBack`, `Utf8`, `Compact`, `FirstBad`,
`Rejects`, `Refuses`, `ParseLeftLemmas`, `ParseLeftTotal`, `Rename`, `Unshare`, `UnshareOwn`, `UnshareWrite`, `Lend`, `TextLemmas`, `Strtod`, `SchemaConverse` (documents that conform are valid), `SchemaExact` (exactly the valid documents), `SchemaGrow` (changes of types), `SchemaSize` (the size of schemas), `Relocate` (parts of documents), `ReplaceRead` (another content for a shared object, read), `SchemaSame` (types with the same schema), `ReadParts` (reading part by part), `ParseAppend` (parsing one document after another), `Truncate` (where a text ends), `SameNumber` (documents that differ in the way in which numbers are written), `Shuffle` (types that differ in the order of alternatives), `Exchange` (types that differ in their containers), `Retable`, `RetableParse` (types that differ in their tables of names and classes), `Listed`, `ListedParse`, `ListedSchema` (classes with their members in another order), `ExchangeSchema` (types with the same valid documents), `NumberSchema` (validity of documents with numbers written in another way), `ReorderSchema` (validity of documents with members in another order: `same` and `Meets` are invariant under `Reorder`, C38), `GenWork` (the calls made by `gen`; `children`, `typeAt`, `spelled` are the specification), `Effort` and `WriteEffort` (models of the work of `ser` and `wr`; `partsOf`, `partsAt`, `levels` are the specification), `Replace` (with `Val.refill` and `OneNode`, which are the specification), `DispatchLemmas` (with `Contains`, `Lacks`, `Scalar`, which are the specification), and the second parts of `ParseError` and
`NumberText`. `Basic` has the type of byte strings. `Demo` has the classes and values of the
examples. `Props/*` has the property theorems, with an `example` beside each, and the refutations.

Every model definition carries a comment with file and lines and says where it simplifies.

Evidence that the model behaves like the code: `Conformance` and `Conformance/{Read,Write,Detail}` run the project's
own test suite on the model. All expectations of test/serialize_*.cpp, test/deserialize_*.cpp, test/detail.cpp,
test/schema.cpp and test/main.cpp hold in the model, checked by evaluation in the kernel, except those it does not cover:
measurements of time, offsets of syntax errors (test/boost.cpp is in `Props/Describe`). They start from the same texts, so they need a reader of
texts that can be run: `Reader` has one, with a proof (`readDoc_iff`) that it accepts exactly the texts of the grammar in `Text`.
It also shows that the contract `Reader` of the theorems about texts can be met (`plainReader`).

## 2. Trusted base

* the Lean kernel; axioms allowed: `propext`, `Classical.choice`, `Quot.sound` only (checked by `#print axioms`,
  list in section 5). No `sorry`, `native_decide`, `bv_decide`, no axioms of our own.
* the reading of the C++ text by hand (the only tie between the model and the code).
* the environment assumptions, which are *interfaces*, not modelled code:
  * RapidJSON: the DOM is a tree of null/bool/number/string/array/object (member order kept, duplicate keys kept);
    `Reader` delivers the depth-first event sequence of that tree; `Writer` prints the event sequence it is given;
    `FindMember` returns the first member with the key; numbers are classified
    by the documented rule (non-negative < 2^32 → Uint, < 2^64 → Uint64, negative ≥ -2^31 → Int, ≥ -2^63 → Int64,
    everything else → Double); `Pointer` parses and resolves RFC 6901 texts.
  * the C++ standard library: `std::map`/`std::set` ordered by key, `std::unordered_map` iterates in *some* order
    (a parameter that theorems quantify over), `std::to_chars`, `gmtime`/`timegm` = proleptic Gregorian calendar.
  * LP64 data model: char is signed 8 bit, short 16, int 32, long and long long 64, `size_t` 64.
  * IEEE 754 binary32/binary64; a finite floating point value is an exact dyadic number.

  * RapidJSON texts (`Text`, `Reader` in `TextIO`): the reader accepts exactly the texts of RFC 8259 and reports
    their events; the writer writes the texts given in `Text`. RapidJSON's reader without the full-precision flag is not
    exact for all doubles, so theorems about texts have the hypothesis `Faithful` for the numbers of the document.
    `-0` is classified as Uint(0).

Modelling decisions that matter for what the theorems say:

* classes are entries of a class table (`Env.classes`), so that types may be recursive; `typeid` names of different
  classes differ.
* the order of iteration of an unordered map is a function of the place and the keys (`Env.order`), any permutation.
* an uninitialised variable has an unspecified value that depends on its type only (`Env.fresh`, `Env.ctor`).
* what base64.hpp reads behind the end of the data is given by arbitrary bytes (`Env.foreign`).
* values contain the objects they share (`Val.sptr address value`), hence acyclic; `Graph` covers cycles. `HasTy` has
  a heap with one object for each address; pointers to different objects at one address (aliasing pointers, pointers to a base) are the subject
  of C104 only.
* a shared pointer or unique pointer is not null in typed values (`HasTy`); writing a null pointer is `ub`.
* the parser: when an event is rejected, `parseBool` does not track the target further (`ParseLeft` does). `ReaderContext::pop` evaluates
  `&stack.back()` on a stack that may be empty; the pointer is not used.
* `Pointer` does no percent-decoding except for URI fragments (`Env.fragment`).
* a derived class is a class with all the members; `Derived` has the difference that the copied archive makes (C75), the other theorems
  hold for derived classes as far as C75 says, or if `persist` is declared `decltype(auto)`.
* the schema model treats members with a default like required ones.
* types that can be written only: a raw pointer is written as a `uptr`, `std::string_view` and `char[N]` are written as a `str`
  (the same code in the headers but for the place of the characters, which is the subject of `Lend`).
* `ParseMem`: a write to an object makes all references to its proper parts invalid. This is more than C++ says (an insertion into a map
  or into a vector with spare capacity keeps them), so that C91 does not rest on capacities or on the kind of container.
* `rapidjson::SizeType` is `unsigned` (the default of RapidJSON) with 32 bits; only `Narrow` depends on it.

Not modelled: memory allocation failure, C++ template instantiation errors except in `Dispatch` (elsewhere a `Ty` exists even where a C++ header
would not compile), multi-threading except for the object that `gmtime` returns (`Threads`, C101; the only
other objects that threads share are the static hash tables, which do not change after their initialisation; C101 assumes sequential consistency,
which is more than C++ promises for a data race), `optional` outside class members (supported by the parser only, with the code for `std::unique_ptr`), custom
(user written) serializers, the handlers of raw numbers (the parser is never instantiated with the flag under which
RapidJSON reports them; `parse_number`, which they call, is modelled).

Undefined behaviour is a separate outcome (`ub`) of the model; a theorem that a function returns a normal outcome
therefore includes the absence of the modelled undefined behaviour.

## 3. Plan per property

| id | how it is modelled and proved |
|---|---|
| C01 | `encode` (model, with fast path) and `decode` over `List UInt8`; induction in steps of 3 bytes |
| C02 | independent spec `rfc4648` by bit list; proof that fast path = triplet path, trailing bytes of the 8-byte word are arbitrary parameters |
| C03 | list of read offsets computed by the model; negation with n=24; exact characterisation of the lengths that over-read |
| C04 | iff with a grammar predicate and an arithmetic regrouping spec |
| C05 | negation (`QR==`/`QQ==`), partial: canonical texts are unique |
| C06 C08 C12 | civil-calendar bijection days↔(y,m,d) proved for all integers; digit formatting lemmas |
| C07 C11 | iff with a spec predicate on the characters |
| C09 C10 | clock resolution as parameter; negations for pre-epoch instants / nanosecond clocks, partial theorems in range |
| C13–C17 C66 | integers as `Int` in ranges, exact dyadics for floats; iff statements per type pair |
| C18 | association-list search |
| C19 C20 | construction with fuel (`Option`); invariant over the outer loops (placed items, taken slots) |
| C21 | negation: {r,g,b,a} has no seed — proved for every fuel via low-bit congruence of FNV-1; partial: sufficient condition |
| C22 | three dispatch functions against linear search |
| C23 C24 | operation histories; invariant |
| C25 | capacity parameter of the parser machine; negation with deeply nested vector, partial with depth bound |
| C26 C27 C28 C29 C30 C31 | structural induction over `Ty` on the mutual model functions |
| C32 C33 C34 | `Conforms` spec (recursive predicate on `Ty`/`Json`), negations for the masked failures |
| C35 | error carries node address; path string theorem composed with JSON Pointer evaluation |
| C36 | search spec; consequence of the conformance theorem, refuted for class alternatives |
| C37 C38 C39 C40 C41 | corollaries on deserialize/parse |
| C42 C43 | zipper machine versus recursive function; induction over `Ty` and `Json` with arbitrary continuation stack |
| C44 C45 | negations on the machine, partials for the supported classes |
| C46 C47 C48 C49 C50 | reference table invariants; partial under `RefSafe` side conditions; negations for escapes and sets; cyclic graphs with fuel |
| C51–C54 | schema tree model plus small validator spec |
| C55 | sorted-unique insertion |
| C56 C57 C58 | negations with witnesses, partial positive versions |
| C59 | prefix-up-to-NUL model of the input string; negation |
| C60 | lifetime of the parsed buffer as an ownership model; negation for the rvalue overload |
| C61 | both readers against `meaning` and `Decodes` on a common class of documents; witnesses outside of it |
| C62 | generator with fuel; returns iff the classes are not recursive |
| C63 | grammar of texts; the text of the events of a document denotes the document |
| C64 | the message of each handler and event; invariant of the stack that all its types have a parser; negation for numbers |
| C65 | `from_chars` and `strtod` as functions on the characters; exact for integers, negation for floating-point numbers |
| C67 | inversion of the validator for each form of schema; valid and `Formatted` documents conform (`Fails` is impossible) and mean something |
| C68 | invariant of the readers: no outcome `ub`, and every entry of the table of shared objects belongs to a node read with its type (`NodeAt`) |
| C69 C70 | the value that `Decodes` gives is a value of its type, finite, and `Readable` (one induction over the document); then C32, C33, C61 before it and C26, C27, C29, C30 behind it |
| C71 | `Conveys` by relation on documents, states and values, with a numbering of objects; the reader follows it, a document denotes nothing iff it `Misfits` or `Dangles`; without masked members such documents are never accepted (`stuck`); heap invariant for the values; C69 and C70 from it |
| C72 | simulation of the two programs, one induction over the document for all types, targets and tables of shared objects |
| C73 | the serializers with conversions of lengths are those without followed by `cut`; `cut` changes nothing iff `Short` |
| C74 | work bounded by a weight of the document, by induction over document and type; nested variants and references for the lower bounds |
| C75 | the three readers (derived throwing, flat throwing, derived boolean) related by induction over document and type; the writers by induction over the value, with the texts that no document starts with |
| C76 | induction over the schema: what the writer model does with the objects of schema.hpp |
| C77 | relation of types and relation of values, stated without the readers; induction over the document and the derivation of the first relation, from what the old program reads (C32, C33) or has written |
| C78 | membership in the list of enumerators; induction over the list |
| C79 | grammar of RFC 3629; a text can be cut before every byte that starts a character, so induction over the grammar of JSON texts; invariant of the serializer on the names in the path and in the reference table |
| C80 | count of nodes of a value without the contents of shared objects; induction over `Shows`, sum over the objects written in full, which are those reachable, each once |
| C81 | relation "first defect in reading order" with its position; both directions by induction over types and documents, from the exact verdict (C33) for everything before the defect; texts of the messages as functions of the reason |
| C82 | relation `Leaves` between the events that were read, the old value and the value left, with the meaning of C59 for everything completed; machine against relation by induction over relation; totality by induction over the document and the prefix |
| C83 | `rename` (C26) as the specification: the value with other addresses; writers and readers commute with renaming by induction over value/document with reference tables renamed; a renaming injective on the value is extended to an injective one; finding 52 |
| C84 | `Ty.lower`, `Env.lower` (C32–C36) and `Val.lower` as the specification of the program with unique pointers; simulation between the two programs for the meaning of documents (parser) and for successful throwing reads (DOM); separate objects: number of occurrences of each address in the value, at most that in the target plus one if the address is new; finding 53 |
| C85 | `Base64.Spec.wreck` as the specification; `decodeOut` is the output buffer of base64_decode whatever it returns; recursion over the groups of four characters, with the position of the first character outside of the alphabet; `spoil` and `refusedTop` put it into the DOM reader and the parser |
| C86 | from the round trip (C26) and address independence (C83): both values are read from the same document, so that they are renamings of one value; the renamings are composed |
| C87 | `Val.lower` (C84) as the specification; induction over values with the invariant that no address of the value is in the table of written objects; the tables of the two programs differ, so the invariant also says that only addresses of the value are added |
| C88 | `Lends`: some string reached from the value is a non-empty view or an array; forgetting the places gives `ser`; induction for both directions, for the second with the invariant that a shared object which lends and is in the table has been written in full |
| C89 | grammar and evaluation of RFC 6901 as inductive relations; equivalence with `scanTokens` and `Json.get` by induction on the text and on the tokens; indices by a value function on digits, with the overflow test as a separate lemma |
| C90 | `date-time` and `full-date` of RFC 3339 with all options in `Rfc3339`, `Means` connects an annotation, a text and a value; from the exact acceptance theorems C02, C07, C11 by uniqueness of the parts of a text |
| C91 | second model of the parser with a memory: roots, paths and references, `touch` invalidates references below a written object; simulation by the first model: the memory is a function of its stack (`memoryBelow`), references are chained (`Tracks`), reading and writing at a reference commutes with this function |
| C92 | spec: `Val.dyn` and `Json.extent` count elements, entries, bytes; DOM reader by induction over documents and types (`read_size`); parser: `mass` counts the objects on the stack, each without the part that is on the stack itself (`hole`), and grows by at most the size of the token (`pstep_size`); text: a document is no larger than its text (`text_length`); with references: `Val.bulk`, `Val.objects` count each object once, the invariant `Hoards` keeps a list of objects that explains the value and the table of references |
| C93 | spec: `Permuted` (same document but for the order of members with distinct names); `Shows`, typing, readability and the reader do not depend on `Env.order` (`iterating_*`); two documents of a value without references are `Permuted` (`shows_permuted`); C26, C29, C30, C80 for both orders |
| C30 again | spec: `survives` (no infinity or NaN outside of class members), `Remains` (document without the members that do not survive); the serializer by induction over values with the table of references (`ser_total`); complete documents show finite values (`shows_finite`) |
| C94 | `depth` and `sdepth` follow `deser` and `ser` and count active calls (`Depth`); spec: `Nested` (levels of types), `links` (pointers and variants in a row), `Nesting` (steps to components, by `ChildAt`), `levels` (of values); a measure that decreases at each step to a component bounds the depth (`depth_measure`); if the throwing variant reads a node, it has read all components (`depth_full`) |
| C95 | spec: `Edits` (two documents and two values that differ at one place); `reassign` (one key of a map); induction over the place, with `pd` for reading (`edit_read`) and `ser` for writing (`edit_write`) |
| C96 | spec: `Leads` (some accepted document begins with the events), `pending` (open containers); invariant `OnTrack` of the handler stack: one handler per open container of a document with holes (`Tower`, `flat`); from every such state the least document of each missing part (`least`) closes all containers (`along_ends`) |
| C97 | model: `serLeft`, `serializeInto`, `writeInto` (content of the destination, also on failure); spec: `trimmed` (container up to the first element that does not survive), `patch` (finite numbers in place of the others); `ser_total` decides each element (`leftItems_trim`), the writer on the value and on its patched version in lockstep (`Shadows`, `paired`) |
| C98 | spec: relation `Remnant` (by type; which documents are refused is `Refused` of C32); reader against relation by induction over document and type (`remnant`), uniqueness (`remnant_unique`), typing by induction over the relation (`Remnant.shaped`) |
| C99 | spec: relation `Alike` (by type); two programs that differ only in `Env.fresh`; `Decodes` of C32/C33 is the same for both by induction over document and type (`decodes_alike`), so is `Conveys` of C71 for documents with references (`conveys_alike`); the parser step does not mention `fresh` (`pstep_withFresh`) |
| C100 | spec: two programs (`SameProgram`) that differ in memory, byte order, leftovers; `ser` and `wr` are the same function for both by induction over the value; leaves by C02 and the text of time stamps |
| C101 | small-step model of threads (`Threads`): `gmtime` writes the shared object, then the fields are read one by one; invariants over all schedules (`Mixes`, `Undisturbed`, `Torn`); negation by a schedule for any two time stamps |
| C102 | the tables of any set of classes replaced by zeros (`Host.early`); simulation event by event for the outcomes, induction over the document (`EarlyOk`) for the exact condition |
| C103 | maps of strings written and read at any place by induction over the entries (`dir_*`); the place of the first object in the table of references computed for the second |
| C104 | two shared objects by address and type (`two_back`), each written and read in a table with at most one other entry (`alone_back`, from `readBack` of C26) |
| C105 | `resolve_same`: two choices of specialisations for one type by induction on the type, for any two operations and sets of headers at once |
| C106 | the same theorem for two operations; `supported_iff`: which types an operation supports by the forms it lacks |
| C107 | the choice of specialisations for the four holders, then the serializers; `text_fills`; induction on types for views inside other types (`owning`) |
| C108 | `ser_beside`: two runs of the serializer side by side, the same until the object is met, different by one node afterwards; `ser_alone`: a content without shared objects does not depend on what was written before |
| C109 | `spends`, `wspends`: the work of a step lies between the number of parts met (own parts, and contents of the objects entered in the table) and that number times 1 + 2 × the longest path; families `ladderVal` (quadratic) and `fragileVal` (exponential) |
| C110 | `genLog` is `gen` with a list of the calls; `called_placed`: the calls are the types at the places of the type; `called_length`; family `twinEnv` |
| C111 | `conforms_valid`: induction over `Desc` (what a generated schema looks like), converse of `valid_conforms`; `Depictable` types, `Regular` documents; for the parser through C61 |
| C112 | `valid_exact`: induction over `Desc`; `decided`: validation always comes to a verdict; `Meets` is the specification |
| C113 | `meets_loosens`: induction over the size of documents and over `Loosens`; then C112 for either schema |
| C114 | `gen_small`: induction over the fuel, with a bound for the schema and for each definition; `genLog_paid`: nine values for each call; `forkEnv`: classes with two pointers to the class before |
| C115 | `ser_two`: two runs side by side, at the root with an empty table and at a place with a table that has no entries for the objects of the part, both filling in one template (`Tmpl`); `ser_keeps`: entries for other objects stay; then induction over the parts |
| C116 | `refill_typed`: the value with the new content has its type in the heap with the new content, and the same addresses; `rename_refill`: new content and new addresses commute; then C108 for the documents and C26 for reading both |
| C117 | `fields_inj`, `schemaDoc_inj`: the members that are written tell the classes of schemas apart; `refused_same`: by induction on why a document is refused for one type (`Refused`, the exact verdict of C32/C33), it is refused for every type that the same schema describes (`Desc`) |
| C118 | `Shifts`: the path along which a reader without shared pointers goes only stands in front of the path of its error (`shifts`); with `seqParts`, the outcomes of the parts one after another, the reader of a container is `seqParts` of the readers of its parts (`sameParts`, `tupleParts`, `entryParts`, `memberPart`); `Together` states what this means without the model's state |
| C119 | the loops of `ParsePure` over the parts of two documents are the loop over the first followed by the loop over the second, from what the first left (`loopVec_andThen`, `loopSet_andThen`: elements of sets are kept back until the end, `loopSet_storage`; `loopMap_andThen`, `loopObj_andThen`) |
| C120 | `den_closed`: by the first character, two texts of values at the same place are of the same kind; strings end at their closing quote (`Chars.unique`), arrays and objects at their closing bracket (`items_unique`, `fields_unique`), so unlike numbers they end at the same place whatever follows |
| C121 | relation `DocAlike` on documents, congruence of `node`, `deser`, `pval` (`deser_alike`, `pval_alike`) for types without integers; an integer that is a `double` is the `double` it is converted to (`eqInt_unique`, `same_double`); for validity, `same` and `Meets` (C112) depend on numbers through `fraction` only |
| C122 | relation `Shuffled` on types (a permutation of the alternatives at every variant) and on the classes of two programs; induction on `Refused` (`refused_shuffled`) and `FirstBad` (`first_shuffled`), on the size of the document for `Meets` (`meets_shuffled`), then the exact verdicts C32, C33, C36, C81 and C112 |
| C123 | function `form` on types that forgets the choice of the container; `Refused` holds for a type iff for its form (induction in both directions), `FirstBad` for the form if for the type, then uniqueness of the first failure (C81) and C122; for validity, `Meets` (C112) holds for a type iff for its `look`, then C122 |
| C124 | function `re` on types that replaces the tables; the searches agree on permuted tables without repetitions (induction on the permutation); then a simulation of `ser`, `wr` and `deser` by structural induction, with the types in the table of references replaced as well; for the parser a simulation event by event, with the types in the handlers replaced |
| C125 | the simulations of C124 for types in which classes are replaced (`Sub.cls`); injectivity is needed for the comparison of types in the table of references only |
| C126 | `Refused` with exceptions for permuted member lists by induction; inside variants, where it is decided without exceptions, for types without classes; `Refused` without exceptions implies `Refused` with exceptions; for the parser the meaning of a document (C42) exists for both orders or none; for schemas `Meets` (C112) and `Uses` (C62) are invariant under permutation |

C32–C36 are proved for types without shared pointers with the value, and (`C3x_shared…`) for all types with the verdict
only, for documents without a member `"$ref"`.

## 4. Findings (places where the code violates the natural property)

Each is proved as a theorem about the model with a concrete witness or for a whole class of inputs.

| # | what the code does | theorems |
|---|---|---|
| 1 | the Base64 encoder reads up to two bytes behind its input for sizes ≥ 24 that are 0 or 1 mod 24 | `C03_base64_overread` |
| 2 | the Base64 decoder ignores stray bits in the last symbol | `C05_base64_not_injective` |
| 3 | time stamps before the epoch move forward when written (truncation towards zero) | `C09_moves_forward` |
| 4 | parsing a time stamp overflows a nanosecond clock; years above 9999 are written but not read | `C10_overflow_nanoseconds`, `C12_year_10000` |
| 5 | exact integers from 2^24 (`float`) and 2^53 (`double`) on are rejected by the parser and accepted by the DOM reader | `C14_power_rejected`, `C16_dom_accepts_more` |
| 6 | reading a `float` rounds silently | `C17_silent_loss` |
| 7 | building the hash table of member names does not terminate for some sets of names, e.g. {r, g, b, a} | `C21_rgba_diverges`, `C21_red_green_blue_alpha_diverges` |
| 8 | the handler stack destroys the handler below a second time when a constructor throws | `C24_throwing_constructor_double_destroy` |
| 9 | the boolean `parse` throws `std::out_of_range` for deep documents and for large handlers | `C25_deep_document_throws`, `C25_big_handlers_throw` |
| 10 | a class member that cannot be serialized is left out of the DOM silently, while the writer fails | `C28_nan_member`, `C30_member_lost` |
| 11 | the verdict of a class is that of its last member: bad or missing members before it are accepted | `C32_masked_accepted`, `C32_last_member_decides`, `C34_disagree_masked`, `C36_masked_alternative`, `C33_masked_in_variant` |
| 12 | the throwing `deserialize` ignores the returned truth value: unresolvable references are not reported | `C33_reference_not_thrown` |
| 13 | the path of an exception is `/` for the root, and keys are not escaped | `C35_root_path`, `C35_unescaped` |
| 14 | references to objects below keys with `/` or `~`, below empty keys and inside sets do not resolve to them | `C47_slash_key`, `C47_empty_key`, `C47_inside_set`, `C48_repeated_object_lost` |
| 15 | cyclic graphs: no serializer returns | `C49_cyclic`, `C49_not_terminating` |
| 16 | a shared pointer to a shared pointer does not survive a round trip | `C26_nested_shared` |
| 17 | a variant is read as an earlier alternative that also accepts | `C26_variant_order` |
| 18 | the parser of named enumerations does not remove its handler: it works only at top level | `C44_nested_rejected`, `C44_written_rejected` |
| 19 | vectors and sets of characters, enumerations without names and pointers to numbers are never parsed | `C45_numbers_rejected` |
| 20 | the parser adds to containers that are not empty and keeps members that are not in the document | `C40_parser_appends`, `C27_default_contents` |
| 21 | repeated keys: the parser takes the last, the DOM reader the first for classes and the last for maps | `C56_readers_differ`, `C56_dom_class_map_differ` |
| 22 | the parser rejects unknown members and never requires members; the DOM reader does the opposite | `C61_unknown_key`, `C61_missing_member` |
| 23 | the parser cannot read references | `C27_shared_twice` |
| 24 | map keys are cut at NUL by the DOM reader | `C57_nul_key_lost` |
| 25 | dictionaries are written as objects and read as arrays of pairs | `C58_dictionary_unreadable`, `C27_dictionary` |
| 26 | everything after a NUL in an input string is ignored | `C59_rest_ignored`, `C59_not_whole` |
| 27 | `string_to_document(std::string&&)` returns a document that refers to the buffer of its argument | `C60_move_dangles` |
| 28 | schemas: enumerations have an empty list of values; variants with overlapping alternatives, repeated shared objects, dictionaries and sets of pointers are written as documents that are not valid | `C54_enum_rejects`, `C51_variant_overlap`, `C51_shared`, `C51_dict`, `C51_set` |
| 29 | schemas of recursive classes: the generator does not return | `C62_recursive` |
| 30 | messages of the parser that contradict themselves: "expected JSON token: number; got: number" | `C64_contradictory_message`, `C64_expected_never_accepted` |
| 31 | `parse_number` for `float` and `double` reads behind the view and accepts empty texts, white space, hexadecimal numbers, `inf` and `nan` (only reachable from user code) | `C65_float_reads_beyond`, `C65_float_accepts_others` |
| 32 | the DOM reader rounds an integer to `double` and then to `float`: 2^60 + 2^36 + 1 is stored as 2^60 though 2^60 + 2^37 is nearer | `C66_double_rounding` |
| 33 | documents that are valid against the generated schema but not readable: `1.0` for an `int`, any text for dates, times and bytes, 2^53 for a `double` (parser) | `C67_whole_number`, `C67_format`, `C67_parser_range` |
| 34 | a `$ref` to a shared object of another type is reinterpreted as the type wanted, also in documents that the library wrote; a `$ref` that is no string or no JSON pointer is used without a check | `C68_type_confusion`, `C68_written_confused`, `C68_reference_not_string`, `C68_reference_no_pointer` |
| 35 | an alternative of a variant that is refused leaves its shared objects in the table: later references get these instead of those of the accepted alternative, if need be as another type | `C46_variant_not_shared`, `C68_variant_confused` |
| 36 | an object that was reported as read can hold null pointers (a missing member that is masked by a later one, or any missing member with the parser); writing it is undefined | `C69_masked_null`, `C69_parser_null` |
| 37 | a number too large for a `float` is read as infinity, then the value cannot be written | `C69_overflow_unwritable` |
| 38 | reading, writing and reading again can change the alternative of a variant | `C70_variant_changes` |
| 39 | a program that does not know a member refuses it (parser), reads another alternative of a variant, or loses objects that other members refer to | `C72_older_parser`, `C72_older_variant`, `C72_older_reference`, `C72_older_masked` |
| 40 | strings, keys and texts of binary data of 4 GiB and more are written with their lengths modulo 2^32, without an error | `C73_long_string`, `C73_long_bytes`, `C73_long_keys` |
| 41 | a variant of classes that contain the variant (expression trees) is read in exponential time, also when the library has written the document: all alternatives are read in full before they are refused | `C74_exponential` |
| 42 | references are resolved from the root again and again: quadratic time | `C74_references_quadratic` |
| 43 | `persist` of a derived class, as documented, works on a copy of the archive: the boolean reader accepts documents without the members of the derived class | `C75_missing_accepted` |
| 44 | for the same reason a variant of derived classes is read back as the first alternative whose base class fits, also by the throwing reader | `C75_wrong_alternative` |
| 45 | for the same reason `write_to_string` returns `true` with a text that is no JSON, when a member of a derived class cannot be written | `C75_broken_text` |
| 46 | a larger type for an alternative of a variant that is not the last one changes what old files are read as; 64-bit integers read as `double` are rounded without a sign | `C77_alternative_widened`, `C77_int64_double` |
| 47 | described enumerations (Boost.Describe): values without a name are written as "" without an error; strings with NUL are accepted for the name in front of it | `C78_undeclared`, `C78_nul_accepted` |
| 48 | strings that are not UTF-8 are written and read without an error | `C79_invalid_written`, `C79_invalid_read`, `C79_late_time` |
| 49 | references spell the whole path: texts can be quadratic in the size of the object graph | `C80_paths_quadratic` |
| 50 | the texts of errors: `expected: integer` for an integer that is out of range of `int` (C81); quotations from the document are not escaped, so that the path in the text is ambiguous, and a NUL character ends `what()` before the path | `C81_integer_expected`, `C81_ambiguous`, `C81_cut` |
| 51 | `bool parse(text, variable)` that returns `false` has changed the variable: what was read before the failure stays, pointers lose their object already with an empty text, bytes are lost (C82) | `C82_not_atomic`, `C82_pointer_lost`, `C82_bytes_lost` |
| 52 | `std::set<std::shared_ptr<T>>` is written in the order of the addresses: the same objects give different documents from run to run (C83) | `C83_set_order` |
| 53 | After a failed read a `std::shared_ptr` refers to an object read in part, a `std::unique_ptr` keeps its old value (deserialize_pointer.hpp:23-28 and 59-62); visible also in accepted documents with a masked member (C84) | `C84_masked`, `C84_rejected` |
| 54 | A refused Base64 text destroys the bytes in the variable (base64.hpp:247-255); with a masked member `deserialize` returns `true` for an object whose bytes have been replaced by zeros (C85) | `C85_masked`, `C82_bytes_lost` |
| 55 | A dangling reference in the middle of an array: the throwing variant returns the elements before it and drops the rest without an exception (deserialize_vector.hpp:26-28, deserialize_pointer.hpp:45-52); a dangling reference in a masked member is accepted also by the boolean variant (C71) | `C71_dangling_truncates`, `C71_dangling_masked` |
| 56 | Different object graphs have the same document if keys contain `/`: a reference `/x/y/z` stands for two objects (detail/path.hpp:17-45), also times in the same second, alternatives of the same shape, NaN and infinity in members (C86) | `C86_paths`, `C86_times`, `C86_alternatives`, `C86_dropped` |
| 57 | `serialize_to_document` copies the characters of `std::string` into the document, but not those of `std::string_view` and `char[N]` (serialize_string.hpp:9-30): the document needs the value as long as it is used, and a change of the array changes the document (C88) | `C88_dangles` |
| 58 | The overflow test for array indices in `rapidjson::Pointer` misses some numbers of more than 32 bits, so that `/6000000000` leads to an element in arrays with more than 429496729 elements (C89) | `C89_overflow` |
| 59 | The schema promises `date-time`, but most texts of this format (with an offset or fractions of a second, such as the examples in RFC 3339) are refused by the readers (C90) | `C90_read_iff` |
| 60 | The DOM reader looks up each member of a class by its name in the document: of a class that declares a name several times, each of these members is read from the same member of the document, and the value is larger than the document (C92) | `C92_same_names` |
| 61 | An alternative of a variant that is refused leaves its shared objects in the table of references; a later reference finds them although they are not part of the value that was read, and the text is in memory twice (C92, C36) | `C92_refused_alternative` |
| 62 | A member that is dropped for an infinity or NaN leaves the shared objects that were serialized before the failure in the table of references (serialize_object.hpp:65-67, serialize_pointer.hpp:54-59): other pointers to them are written as references to a place that is not in the document, and `serialize_to_document` reports success (C47) | `C47_left_out` |
| 63 | Of an object that is the value of two keys of an `std::unordered_map`, the hash order decides which entry holds the object and which holds `$ref`: documents of equal values are different on different platforms, not only in the order of members (C93) | `C93_shared` |
| 64 | Reading and writing recurse once per level, pointer and variant, without a limit: for a class that contains itself a nested document of a few hundred kilobytes overflows the stack of the process; only the streaming parser limits nesting (C25, C94) | `C94_recursive` |
| 65 | The handler of an enumeration with names stays on the stack (finding on C44): for a tuple with such a component the parser reads on after `[` although no document at all is acceptable (C96). The same for types nested too deeply for the fixed stack: no document is accepted, but the parser begins to read | `C96_enum_late`, `C96_deep_late` |
| 66 | A failed `serialize_to_document(obj, doc)` leaves a part of the value in `doc`, with closed brackets, in place of what was there (serialize_vector.hpp:16-24, serialize_map.hpp:18-24); a failed `write_to_string(obj, str)` leaves `str` as it was (C97, C29) | `C97_overwritten` |
| 67 | `bool deserialize(document, variable)` that returns `false` has changed the variable: members before and after the refused one are read, containers hold the elements before it, a refused optional member holds a value that nothing was read into (deserialize_object.hpp:38-41; C98) | `C98_not_atomic`, `C98_exact` |
| 68 | `bool deserialize` accepts `{"a": "x", "b": 1}` for `struct { std::optional<int> a; int b; }` and leaves the contents of an uninitialised local variable in `a` (deserialize_object.hpp:38-41; C99) | `C99_bool_uninitialised` |
| 69 | `T parse` accepts `{}` for a class with a required `int` member and returns the contents of an uninitialised variable in it (parse.hpp:38; C99) | `C99_parse_uninitialised` |
| 70 | A time stamp whose year does not have one to four digits is written with unspecified characters in the place of the year, the result is reported as success (datetime.hpp:180-193, `std::to_chars` result not checked; C100) | `C100_time_iff`, `C100_leak` |
| 71 | `to_iso_date` and `to_iso_datetime` use `gmtime`, whose result is shared by all threads (datetime.hpp:253, 277): a thread may write the time of another thread, or a mixture such as 2000-02-31, which no reader accepts, and report success (C101) | `C101_other_text`, `C101_no_such_day`, `C101_two_iff` |
| 72 | The table of member names is initialised dynamically and, as a member of a template, in no order (parse_object.hpp:207): `parse` called by the initialiser of a static object may find it filled with zeros and refuses every key of a class with three or more members except the name of the first member (C102) | `C102_key`, `C102_refused`, `C102_violated` |
| 73 | A key `"$ref"` of a shared map is taken for a reference (deserialize_pointer.hpp:40-55), which the writers do not prevent: the map is refused, replaced by another object with success reported, or reading it is undefined; the parser, which has no references, takes the reference to a repeated map of strings for a map (C103) | `C103_lost`, `C103_aliased`, `C103_confused`, `C103_reference_read` |
| 74 | The writers know objects again by their address alone (detail/output_context.hpp:10): for a pointer to the first member of an object (aliasing constructor), or to the base of an object, after one to the object itself, a reference of the wrong type is written (C104) | `C104_confused` |
| 75 | Which headers are included changes the output: `std::vector<std::byte>` is an array of numbers without serialize_bytes.hpp (`std::byte` is an enumeration), a vector of pairs with a string is an array of pairs without serialize_map.hpp; no error in either case (C105) | `C105_bytes`, `C105_dictionary` |
| 76 | The operations support different types: no schema for smart pointers to scalars (schema.hpp:474-490 calls `type(context)`), a schema for `long double` and `wchar_t`, which nothing reads or writes, no variants in the parser, `std::optional` outside classes in the parser only (C106) | `C106_not_supported` |
| 77 | `const char*` is written as the number of its first character (serialize_pointer.hpp:21-25); `char[N]` is written with the NULs behind its text, or without its last character (serialize_string.hpp:14) (C107) | `C107_not_text` |
| 78 | An object is entered in the table after it has been written, so one that cannot be written is tried again at every pointer (serialize_pointer.hpp:53-59); a class goes on after a member that fails (serialize_object.hpp:65-67). A graph of size 5n+4 takes 12·2^n − 7 calls of `serialize` (n = 30: 12.9 thousand million calls for 154 values and pointers) for the document `{}`. `write_to_string` stops at the first failure and does not have this (C109) | `C109_exponential` |
| 79 | `put` collects the path to the root for every shared object, also when nothing refers to it again (detail/output_context.hpp:32-35, 42-51): a chain of n shared objects costs (n² + 5n + 2)/2 (C109) | `C109_chain`, `C109_not_linear` |
| 80 | `schema.hpp:394-399`: the schema of a class is generated (and an object of the class is made) as an argument of `insert`, also when there is already a definition for the class; with n + 1 classes that each have two members of the class before, generating the schema takes 2^(n+1) − 1 calls for a document with n definitions (n = 30: two thousand million calls) | `C110_exponential` |
| 81 | the readers accept documents that the generated schema rejects: unknown members (the schema says `additionalProperties: false`), repeated elements of sets (`uniqueItems`), `5` for `std::variant<int, double>` (`oneOf`), references instead of shared objects, and, for the parser, objects without required members | `C111_unknown`, `C111_repeated`, `C111_variant`, `C111_reference`, `C111_missing` |
| 82 | changes of a program that the readers do not mind make valid documents invalid: an alternative `double` added to `std::variant<int, std::string>` (then `5` has two alternatives, `oneOf`), a removed member (`additionalProperties: false`) | `C113_variant`, `C113_removed` |
| 83 | `schema.hpp:474-490`: the class that a smart pointer points to is described in place, without a definition; with n + 1 classes that each have two pointers to the class before, the schema document has 12·2^n − 7 values (n = 30: more than twelve thousand million) | `C114_exponential` |
| 84 | `schema.hpp:241-341`: the schema of an enumeration does not tell its names, and the schema of a pointer does not tell whether it is shared; so there are types with the same schema of which one accepts documents that the other refuses. `float` and `double` have the same schema, the streaming parser refuses numbers beyond the range of `float` for one of them | `C117_enumeration`, `C117_reference`, `C117_parser` |
| 85 | `parse.hpp:16`, `deserialize.hpp:73`: a file with a single number that was not written to its end is read as another number (`1` of `12`) | `C120_number` |
| 86 | `parse_fundamental.hpp:55-64`, `deserialize_variant.hpp:18`: `9007199254740992.0` is parsed into a `double`, `9007199254740992` is not; `std::variant<int, double>` reads `1` and `1.0` as different alternatives | `C121_integers`, `C121_variant` |
| 87 | `deserialize_variant.hpp:18`: `1` is read as an `int` by `std::variant<int, double>` and as a `double` by `std::variant<double, int>` | `C122_overlap` |
| 88 | `deserialize_pointer.hpp`: a program that replaces `std::shared_ptr` by `std::unique_ptr` can no longer read files with `$ref` | `C123_references` |
| 89 | `deserialize_pointer.hpp:54`: merging two classes with the same members, or splitting one, changes whether files with references between them have defined behaviour | `C125_merged` |
| 90 | `deserialize_object.hpp:40, 56, 78`: whether a document is accepted without exceptions, and by variants of classes, depends on the order in which the class lists its members | `C126_bool`, `C126_variant` |
| 91 | `schema.hpp:552-562`: a document with equal elements is not valid for a set, though it is read into one; a set cannot be exchanged for a vector without a change of the valid documents | `C123_schema_set` |

Seen while reading, not modelled: schemas of
`MEMBER_VARIABLE_DEFAULT` and of pointers to types without a context do not compile.

## 5. Theorems and axioms

Testing of the theorems against wrong programs: `tools/mutate.py` changes a definition of the model in a scratch copy and
counts the property theorems that no longer follow; results are in `seeded/LOG.jsonl`. In a line with
`does_not_compile` the runner stopped before counting, so its empty list of theorems is not a result.

Written by `tools/axioms.py`:

<!-- axioms -->
| theorem | Props/ | axioms |
|---|---|---|
| `C01_base64_roundtrip` | Base64 | propext, Classical.choice, Quot.sound |
| `C02_base64_rfc4648` | Base64 | propext, Classical.choice, Quot.sound |
| `C02_base64_length` | Base64 | propext, Classical.choice, Quot.sound |
| `C02_base64_endian` | Base64 | propext, Classical.choice, Quot.sound |
| `C03_base64_overread` | Base64 | propext, Quot.sound |
| `C03_base64_reads_in_bounds_partial` | Base64 | propext, Classical.choice, Quot.sound |
| `C03_base64_overread_at_most_two_partial` | Base64 | propext, Classical.choice, Quot.sound |
| `C03_base64_table_in_bounds` | Base64 | propext, Classical.choice, Quot.sound |
| `C04_base64_decode_spec` | Base64 | propext, Classical.choice, Quot.sound |
| `C04_base64_decode_accepts` | Base64 | propext, Classical.choice, Quot.sound |
| `C05_base64_not_injective` | Base64 | propext, Classical.choice, Quot.sound |
| `C05_base64_canonical_partial` | Base64 | propext, Classical.choice, Quot.sound |
| `C05_base64_preimages` | Base64 | propext, Classical.choice, Quot.sound |
| `C05_base64_reencode` | Base64 | propext, Classical.choice, Quot.sound |
| `C06_timestamp_roundtrip` | DateTime | propext, Classical.choice, Quot.sound |
| `C07_calendar_counts_days` | DateTime | propext, Classical.choice, Quot.sound |
| `C07_parse_accepts_exactly` | DateTime | propext, Classical.choice, Quot.sound |
| `C08_texts_sort_chronologically` | DateTime | propext, Classical.choice, Quot.sound |
| `C09_subsecond_partial` | DateTime | propext, Classical.choice, Quot.sound |
| `C09_moves_forward` | DateTime | propext |
| `C09_exact_partial` | DateTime | propext, Classical.choice, Quot.sound |
| `C10_no_overflow_partial` | DateTime | propext, Classical.choice, Quot.sound |
| `C10_overflow_nanoseconds` | DateTime | propext, Classical.choice, Quot.sound |
| `C10_overflow_iff` | DateTime | propext, Classical.choice, Quot.sound |
| `C11_date_accepts_exactly` | DateTime | propext, Classical.choice, Quot.sound |
| `C11_date_roundtrip` | DateTime | propext, Classical.choice, Quot.sound |
| `C12_written_parses_iff` | DateTime | propext, Classical.choice, Quot.sound |
| `C12_nanosecond_partial` | DateTime | propext, Classical.choice, Quot.sound |
| `C12_year_10000` | DateTime | propext, Classical.choice, Quot.sound |
| `C13_parse_int_exact` | Numeric | propext, Classical.choice, Quot.sound |
| `C14_int_to_float_partial` | Numeric | propext, Classical.choice, Quot.sound |
| `C14_power_rejected` | Numeric | propext |
| `C15_deserialize_int_exact` | Numeric | propext, Classical.choice, Quot.sound |
| `C16_readers_agree_int_partial` | Numeric | propext, Classical.choice, Quot.sound |
| `C16_readers_agree_float_partial` | Numeric | propext, Classical.choice, Quot.sound |
| `C16_dom_accepts_more` | Numeric | propext |
| `C16_float_from_int_partial` | Rounding | propext, Classical.choice, Quot.sound |
| `C16_float_from_double_partial` | Rounding | propext, Classical.choice, Quot.sound |
| `C17_float_exact_partial` | Numeric | propext, Classical.choice, Quot.sound |
| `C17_float_values_exact_partial` | Numeric | propext, Classical.choice, Quot.sound |
| `C17_silent_loss` | Numeric | propext |
| `C17_exact_iff_partial` | Rounding | propext, Classical.choice, Quot.sound |
| `C17_overflow_partial` | Rounding | propext, Classical.choice, Quot.sound |
| `C18_read_first` | EnumConv | propext, Quot.sound |
| `C18_write_first` | EnumConv | propext, Quot.sound |
| `C18_enum_roundtrip` | EnumConv | propext, Quot.sound |
| `C18_name_roundtrip` | EnumConv | propext, Quot.sound |
| `C18_same_name_loses` | EnumConv | none |
| `C19_lookup_exact` | PerfectHash | propext, Classical.choice, Quot.sound |
| `C19_built_names_distinct` | PerfectHash | propext, Classical.choice, Quot.sound |
| `C20_lookup_in_bounds` | PerfectHash | propext, Classical.choice, Quot.sound |
| `C20_hash_dispatch_exact` | PerfectHash | propext, Classical.choice, Quot.sound |
| `C21_build_never_throws` | PerfectHash | propext, Classical.choice, Quot.sound |
| `C21_build_diverges` | PerfectHash | propext, Classical.choice, Quot.sound |
| `C21_rgba_diverges` | PerfectHash | propext, Classical.choice, Quot.sound |
| `C21_power_of_two_decides_partial` | PerfectHash | propext, Classical.choice, Quot.sound |
| `C21_red_green_blue_alpha_diverges` | PerfectHash | propext, Classical.choice, Quot.sound |
| `C21_builds_without_collisions_partial` | PerfectHash | propext, Classical.choice, Quot.sound |
| `C22_dispatch_exact` | PerfectHash | propext, Classical.choice, Quot.sound |
| `C23_stack_refines_list` | PolyStack | propext, Quot.sound |
| `C23_live_objects_disjoint_in_bounds` | PolyStack | propext, Quot.sound |
| `C23_live_objects_aligned` | PolyStack | propext, Quot.sound |
| `C24_destroyed_exactly_once_partial` | PolyStack | propext, Quot.sound |
| `C24_throwing_constructor_double_destroy` | PolyStack | propext |
| `C24_reverse_order` | PolyStack | propext, Classical.choice, Quot.sound |
| `C25_no_exception_partial` | Parse | propext, Quot.sound |
| `C25_deep_document_throws` | Parse | propext, Classical.choice, Quot.sound |
| `C25_big_handlers_throw` | Parse | propext, Classical.choice, Quot.sound |
| `C26_dom_roundtrip_partial` | RoundTrip | propext, Classical.choice, Quot.sound |
| `C26_unshared_roundtrip_partial` | RoundTrip | propext, Classical.choice, Quot.sound |
| `C26_variant_order` | RoundTrip | propext, Classical.choice, Quot.sound |
| `C26_nested_shared` | RoundTrip | propext, Classical.choice, Quot.sound |
| `C26_string_roundtrip_partial` | Text | propext, Classical.choice, Quot.sound |
| `C27_text_roundtrip_partial` | ParseBack | propext, Classical.choice, Quot.sound |
| `C27_unshared_roundtrip_partial` | ParseBack | propext, Classical.choice, Quot.sound |
| `C27_dictionary` | ParseBack | propext, Classical.choice, Quot.sound |
| `C27_default_contents` | ParseBack | propext, Classical.choice, Quot.sound |
| `C27_shared_twice` | ParseBack | propext, Classical.choice, Quot.sound |
| `C27_depth` | ParseBack | propext, Classical.choice, Quot.sound |
| `C27_string_roundtrip_partial` | Text | propext, Classical.choice, Quot.sound |
| `C28_same_text_partial` | Write | propext, Classical.choice, Quot.sound |
| `C28_class_free` | Write | propext, Classical.choice, Quot.sound |
| `C28_nan_member` | Write | propext, Classical.choice, Quot.sound |
| `C29_write_succeeds_iff_finite` | Write | propext, Classical.choice, Quot.sound |
| `C30_fails_iff` | Survive | propext, Classical.choice, Quot.sound |
| `C30_what_remains` | Survive | propext, Classical.choice, Quot.sound |
| `C30_complete_iff` | Survive | propext, Classical.choice, Quot.sound |
| `C30_member_lost` | Write | propext, Classical.choice, Quot.sound |
| `C30_nothing_lost_partial` | Write | propext, Classical.choice, Quot.sound |
| `C31_members_exact` | Survive | propext, Classical.choice, Quot.sound |
| `C31_members_in_order_partial` | Write | propext, Classical.choice, Quot.sound |
| `C31_never_extra` | Write | propext, Classical.choice, Quot.sound |
| `C32_conforming_accepted` | Read | propext, Classical.choice, Quot.sound |
| `C32_last_member_decides` | Read | propext, Classical.choice, Quot.sound |
| `C32_masked_accepted` | Read | propext, Classical.choice, Quot.sound |
| `C32_exact_partial` | Read | propext, Classical.choice, Quot.sound |
| `C32_verdict` | ReadExact | propext, Classical.choice, Quot.sound |
| `C32_shared_verdict` | ReadExact | propext, Classical.choice, Quot.sound |
| `C32_shared_conforming_accepted` | ReadShared | propext, Classical.choice, Quot.sound |
| `C32_shared_partial` | ReadShared | propext, Classical.choice, Quot.sound |
| `C32_shared_value_partial` | Unshare | propext, Classical.choice, Quot.sound |
| `C33_throws_only_if_bad` | Read | propext, Classical.choice, Quot.sound |
| `C33_exact_partial` | Read | propext, Classical.choice, Quot.sound |
| `C33_masked_in_variant` | Read | propext, Classical.choice, Quot.sound |
| `C33_reference_not_thrown` | Read | propext, Classical.choice, Quot.sound |
| `C33_verdict` | ReadExact | propext, Classical.choice, Quot.sound |
| `C33_shared_verdict` | ReadExact | propext, Classical.choice, Quot.sound |
| `C33_shared_throws_only_if_bad` | ReadShared | propext, Classical.choice, Quot.sound |
| `C33_shared_partial` | ReadShared | propext, Classical.choice, Quot.sound |
| `C33_shared_value_partial` | Unshare | propext, Classical.choice, Quot.sound |
| `C34_returned_accepted` | Read | propext, Classical.choice, Quot.sound |
| `C34_agree_partial` | Read | propext, Classical.choice, Quot.sound |
| `C34_disagree_masked` | Read | propext, Classical.choice, Quot.sound |
| `C34_disagreement` | ReadExact | propext, Classical.choice, Quot.sound |
| `C34_shared_returned_accepted` | ReadShared | propext, Classical.choice, Quot.sound |
| `C34_shared_agree_partial` | ReadShared | propext, Classical.choice, Quot.sound |
| `C35_path_partial` | Read | propext, Classical.choice, Quot.sound |
| `C35_root_path` | Read | propext, Classical.choice, Quot.sound |
| `C35_unescaped` | Read | propext, Classical.choice, Quot.sound |
| `C35_shared_path_partial` | ReadShared | propext, Classical.choice, Quot.sound |
| `C36_first_alternative_partial` | Read | propext, Classical.choice, Quot.sound |
| `C36_masked_alternative` | Read | propext, Classical.choice, Quot.sound |
| `C36_chosen` | ReadExact | propext, Classical.choice, Quot.sound |
| `C36_shared_first_partial` | ReadShared | propext, Classical.choice, Quot.sound |
| `C37_parser_unknown_rejected` | Parse | propext, Classical.choice, Quot.sound |
| `C37_dom_ignores_unknown` | Read | propext, Classical.choice, Quot.sound |
| `C38_parser_order` | ParseMore | propext, Classical.choice, Quot.sound |
| `C38_dom_order` | Read | propext, Classical.choice, Quot.sound |
| `C38_dom_deep_partial` | Read | propext, Classical.choice, Quot.sound |
| `C38_schema` | ReorderSchema | propext, Classical.choice, Quot.sound |
| `C38_parser_shared_partial` | UnshareMore | propext, Classical.choice, Quot.sound |
| `C38_dom_shared_partial` | UnshareMore | propext, Classical.choice, Quot.sound |
| `C39_parser_exact_length` | Parse | propext, Quot.sound |
| `C39_dom_exact_length` | Read | propext, Classical.choice, Quot.sound |
| `C39_dom_other_length` | Read | propext, Classical.choice, Quot.sound |
| `C40_parser_appends` | ParseMore | propext, Quot.sound |
| `C40_parser_keeps_elements` | ParseMore | propext, Classical.choice, Quot.sound |
| `C40_parser_target_partial` | ParseMore | propext, Classical.choice, Quot.sound |
| `C40_dom_target_partial` | Read | propext, Classical.choice, Quot.sound |
| `C40_masked_keeps` | Read | propext, Classical.choice, Quot.sound |
| `C41_failed_keeps_target` | Read | propext, Classical.choice, Quot.sound |
| `C42_document_partial` | Parse | propext, Classical.choice, Quot.sound |
| `C42_anywhere_partial` | Parse | propext, Classical.choice, Quot.sound |
| `C42_surroundings` | Parse | propext, Quot.sound |
| `C43_handler_present` | Parse | propext, Quot.sound |
| `C44_nested_rejected` | Parse | propext, Classical.choice, Quot.sound |
| `C44_written_rejected` | Parse | propext, Classical.choice, Quot.sound |
| `C44_root_partial` | Parse | propext, Classical.choice, Quot.sound |
| `C45_numbers_rejected` | Parse | propext, Quot.sound |
| `C45_elements_partial` | Parse | propext, Quot.sound |
| `C46_variant_not_shared` | Alternatives | propext, Classical.choice, Quot.sound |
| `C46_sharing_partial` | RoundTrip | propext, Classical.choice, Quot.sound |
| `C47_left_out` | Survive | propext, Classical.choice, Quot.sound |
| `C47_paths_resolve_partial` | Write | propext, Classical.choice, Quot.sound |
| `C47_slash_key` | Write | propext, Classical.choice, Quot.sound |
| `C47_empty_key` | Write | propext, Classical.choice, Quot.sound |
| `C47_inside_set` | Write | propext, Classical.choice, Quot.sound |
| `C48_repeated_object_lost` | RoundTrip | propext, Classical.choice, Quot.sound |
| `C48_set_alone_partial` | RoundTrip | propext, Classical.choice, Quot.sound |
| `C49_terminates_partial` | Graph | propext, Classical.choice, Quot.sound |
| `C49_returns_partial` | Graph | propext, Classical.choice, Quot.sound |
| `C49_cyclic` | Graph | propext, Classical.choice, Quot.sound |
| `C49_not_terminating` | Graph | propext, Classical.choice, Quot.sound |
| `C50_written_once` | Write | propext, Classical.choice, Quot.sound |
| `C51_written_valid_partial` | Schema | propext, Classical.choice, Quot.sound |
| `C51_variant_overlap` | Schema | propext, Classical.choice, Quot.sound |
| `C51_shared` | Schema | propext, Classical.choice, Quot.sound |
| `C51_dict` | Schema | propext, Classical.choice, Quot.sound |
| `C51_set` | Schema | propext, Classical.choice, Quot.sound |
| `C51_schema_text_partial` | SchemaWrite | propext, Classical.choice, Quot.sound |
| `C52_members` | Schema | propext, Classical.choice, Quot.sound |
| `C52_definitions` | Schema | propext, Classical.choice, Quot.sound |
| `C52_valid` | Schema | propext, Classical.choice, Quot.sound |
| `C53_closed` | Schema | propext, Classical.choice, Quot.sound |
| `C54_enum_rejects` | Schema | propext, Classical.choice, Quot.sound |
| `C55_set_contents` | Containers | propext, Classical.choice, Quot.sound |
| `C55_order_and_multiplicity` | Containers | propext, Classical.choice, Quot.sound |
| `C55_parser_set_contents` | ParseMore | propext, Classical.choice, Quot.sound |
| `C55_parser_order_partial` | ParseMore | propext, Classical.choice, Quot.sound |
| `C56_map_partial` | Agree | propext, Classical.choice, Quot.sound |
| `C56_readers_differ` | ParseMore | propext, Classical.choice, Quot.sound |
| `C56_dom_class_first` | Read | propext, Classical.choice, Quot.sound |
| `C56_dom_map_last` | Read | propext, Classical.choice, Quot.sound |
| `C56_dom_class_map_differ` | Read | propext, Classical.choice, Quot.sound |
| `C57_keys_read` | Containers | propext, Classical.choice, Quot.sound |
| `C57_nul_key_lost` | Containers | propext, Classical.choice, Quot.sound |
| `C57_keys_survive_partial` | Containers | propext, Classical.choice, Quot.sound |
| `C58_dictionary_unreadable` | Containers | propext, Classical.choice, Quot.sound |
| `C58_pairs_read_partial` | Containers | propext, Classical.choice, Quot.sound |
| `C59_rest_ignored` | Text | propext, Classical.choice, Quot.sound |
| `C59_not_whole` | Text | propext, Classical.choice, Quot.sound |
| `C59_whole_partial` | Text | propext, Classical.choice, Quot.sound |
| `C59_malformed_rejected` | Text | propext, Classical.choice, Quot.sound |
| `C60_copy_owned_partial` | Text | propext, Classical.choice, Quot.sound |
| `C60_move_readable_iff` | Text | propext, Classical.choice, Quot.sound |
| `C60_move_dangles` | Text | propext, Classical.choice, Quot.sound |
| `C61_same_result_partial` | Agree | propext, Classical.choice, Quot.sound |
| `C61_same_returned_partial` | Agree | propext, Classical.choice, Quot.sound |
| `C61_unknown_key` | Agree | propext, Classical.choice, Quot.sound |
| `C61_missing_member` | Agree | propext, Classical.choice, Quot.sound |
| `C61_big_integer` | Agree | propext, Classical.choice, Quot.sound |
| `C61_nul_key` | Agree | propext, Classical.choice, Quot.sound |
| `C61_previous_contents` | Agree | propext, Classical.choice, Quot.sound |
| `C61_shared_partial` | Unshare | propext, Classical.choice, Quot.sound |
| `C62_returns_partial` | Schema | propext, Classical.choice, Quot.sound |
| `C62_recursive` | Schema | propext, Classical.choice, Quot.sound |
| `C63_text_denotes_document` | Text | propext, Classical.choice, Quot.sound |
| `C63_document_text` | Text | propext, Classical.choice, Quot.sound |
| `C63_failure_keeps_string` | Text | propext, Classical.choice, Quot.sound |
| `C64_message` | ParseError | propext, Classical.choice, Quot.sound |
| `C64_silent` | ParseError | propext, Classical.choice, Quot.sound |
| `C64_unexpected_token` | ParseError | propext, Classical.choice, Quot.sound |
| `C64_expected_accepted_partial` | ParseError | propext, Classical.choice, Quot.sound |
| `C64_content_message_partial` | ParseError | propext, Classical.choice, Quot.sound |
| `C64_content_text_partial` | ParseError | propext, Classical.choice, Quot.sound |
| `C64_contradictory_message` | ParseError | propext, Classical.choice, Quot.sound |
| `C64_expected_never_accepted` | ParseError | propext, Classical.choice, Quot.sound |
| `C65_int_exact` | NumberText | propext, Classical.choice, Quot.sound |
| `C65_int_back` | NumberText | propext, Classical.choice, Quot.sound |
| `C65_float_reads_beyond` | NumberText | propext, Classical.choice, Quot.sound |
| `C65_float_accepts_others` | NumberText | propext, Classical.choice, Quot.sound |
| `C65_float_json_partial` | NumberText | propext, Classical.choice, Quot.sound |
| `C65_float_exact_partial` | NumberText | propext, Classical.choice, Quot.sound |
| `C65_float_terminated_partial` | NumberText | propext, Classical.choice, Quot.sound |
| `C66_parser_nearest_partial` | Rounding | propext, Classical.choice, Quot.sound |
| `C66_dom_nearest_partial` | Rounding | propext, Classical.choice, Quot.sound |
| `C66_double_rounding` | Rounding | propext, Classical.choice, Quot.sound |
| `C66_dom_integer_exact_partial` | Rounding | propext, Classical.choice, Quot.sound |
| `C66_dom_integer_error_partial` | Rounding | propext, Classical.choice, Quot.sound |
| `C67_dom_partial` | SchemaReads | propext, Classical.choice, Quot.sound |
| `C67_parser_partial` | SchemaReads | propext, Classical.choice, Quot.sound |
| `C67_same_value_partial` | SchemaReads | propext, Classical.choice, Quot.sound |
| `C67_whole_number` | SchemaReads | propext, Classical.choice, Quot.sound |
| `C67_format` | SchemaReads | propext, Classical.choice, Quot.sound |
| `C67_parser_range` | SchemaReads | propext, Classical.choice, Quot.sound |
| `C68_variant_confused` | Alternatives | propext, Classical.choice, Quot.sound |
| `C68_parser_partial` | Safe | propext, Classical.choice, Quot.sound |
| `C68_parser_coarse_clock` | Safe | propext, Classical.choice, Quot.sound |
| `C68_dom_partial` | Safe | propext, Classical.choice, Quot.sound |
| `C68_one_pointee_partial` | Safe | propext, Classical.choice, Quot.sound |
| `C68_no_references_partial` | Safe | propext, Classical.choice, Quot.sound |
| `C68_type_confusion` | Safe | propext, Classical.choice, Quot.sound |
| `C68_written_confused` | Safe | propext, Classical.choice, Quot.sound |
| `C68_reference_not_string` | Safe | propext, Classical.choice, Quot.sound |
| `C68_reference_no_pointer` | Safe | propext, Classical.choice, Quot.sound |
| `C68_clock` | Safe | propext, Classical.choice, Quot.sound |
| `C69_dom_written_partial` | ReadWrite | propext, Classical.choice, Quot.sound |
| `C69_returned_written_partial` | ReadWrite | propext, Classical.choice, Quot.sound |
| `C69_parsed_written_partial` | ReadWrite | propext, Classical.choice, Quot.sound |
| `C69_masked_null` | ReadWrite | propext, Classical.choice, Quot.sound |
| `C69_parser_null` | ReadWrite | propext, Classical.choice, Quot.sound |
| `C69_overflow_unwritable` | ReadWrite | propext, Classical.choice, Quot.sound |
| `C69_shared_written_partial` | References | propext, Classical.choice, Quot.sound |
| `C70_dom_partial` | ReadWrite | propext, Classical.choice, Quot.sound |
| `C70_returned_partial` | ReadWrite | propext, Classical.choice, Quot.sound |
| `C70_parser_partial` | ReadWrite | propext, Classical.choice, Quot.sound |
| `C70_variant_changes` | ReadWrite | propext, Classical.choice, Quot.sound |
| `C70_dictionary` | ReadWrite | propext, Classical.choice, Quot.sound |
| `C70_enum_changes` | ReadWrite | propext, Classical.choice, Quot.sound |
| `C70_shared_partial` | References | propext, Classical.choice, Quot.sound |
| `C71_denoted_read_partial` | References | propext, Classical.choice, Quot.sound |
| `C71_denotes_iff_partial` | References | propext, Classical.choice, Quot.sound |
| `C71_throw_exact_partial` | References | propext, Classical.choice, Quot.sound |
| `C71_bool_exact_partial` | References | propext, Classical.choice, Quot.sound |
| `C71_accepts_iff_partial` | References | propext, Classical.choice, Quot.sound |
| `C71_dangling_refused_partial` | References | propext, Classical.choice, Quot.sound |
| `C71_dangling_masked` | References | propext, Classical.choice, Quot.sound |
| `C71_dangling_truncates` | References | propext, Classical.choice, Quot.sound |
| `C71_graph_partial` | References | propext, Classical.choice, Quot.sound |
| `C72_added_bool` | Evolve | propext, Classical.choice, Quot.sound |
| `C72_added_throw` | Evolve | propext, Classical.choice, Quot.sound |
| `C72_old_files_partial` | Evolve | propext, Classical.choice, Quot.sound |
| `C72_parser_partial` | Evolve | propext, Classical.choice, Quot.sound |
| `C72_required_added` | Evolve | propext, Classical.choice, Quot.sound |
| `C72_older_partial` | Evolve | propext, Classical.choice, Quot.sound |
| `C72_older_variant` | Evolve | propext, Classical.choice, Quot.sound |
| `C72_older_masked` | Evolve | propext, Classical.choice, Quot.sound |
| `C72_older_parser` | Evolve | propext, Classical.choice, Quot.sound |
| `C72_older_reference` | Evolve | propext, Classical.choice, Quot.sound |
| `C73_document_partial` | Narrow | propext, Classical.choice, Quot.sound |
| `C73_text_partial` | Narrow | propext, Classical.choice, Quot.sound |
| `C73_roundtrip_partial` | Narrow | propext, Classical.choice, Quot.sound |
| `C73_long_string` | Narrow | propext, Classical.choice, Quot.sound |
| `C73_long_bytes` | Narrow | propext, Classical.choice, Quot.sound |
| `C73_long_keys` | Narrow | propext, Classical.choice, Quot.sound |
| `C74_bound` | Cost | propext, Classical.choice, Quot.sound |
| `C74_linear_partial` | Cost | propext, Classical.choice, Quot.sound |
| `C74_references_partial` | Cost | propext, Classical.choice, Quot.sound |
| `C74_exponential` | Cost | propext, Classical.choice, Quot.sound |
| `C74_references_quadratic` | Cost | propext, Classical.choice, Quot.sound |
| `C75_flat` | Derived | propext, Classical.choice, Quot.sound |
| `C75_throw_partial` | Derived | propext, Classical.choice, Quot.sound |
| `C75_bool_partial` | Derived | propext, Classical.choice, Quot.sound |
| `C75_missing_accepted` | Derived | propext, Classical.choice, Quot.sound |
| `C75_wrong_alternative` | Derived | propext, Classical.choice, Quot.sound |
| `C75_write_exact` | Derived | propext, Classical.choice, Quot.sound |
| `C75_broken_text` | Derived | propext, Classical.choice, Quot.sound |
| `C76_written` | SchemaWrite | propext, Classical.choice, Quot.sound |
| `C76_text` | SchemaWrite | propext, Classical.choice, Quot.sound |
| `C77_shared_throw_partial` | UnshareMore | propext, Classical.choice, Quot.sound |
| `C77_shared_files_partial` | UnshareMore | propext, Classical.choice, Quot.sound |
| `C77_throw_partial` | Widen | propext, Classical.choice, Quot.sound |
| `C77_bool_partial` | Widen | propext, Classical.choice, Quot.sound |
| `C77_files_partial` | Widen | propext, Classical.choice, Quot.sound |
| `C77_parser_partial` | Widen | propext, Classical.choice, Quot.sound |
| `C77_to_vector` | Widen | propext, Classical.choice, Quot.sound |
| `C77_int64_double` | Widen | propext, Classical.choice, Quot.sound |
| `C77_alternative_widened` | Widen | propext, Classical.choice, Quot.sound |
| `C77_alternative_in_front` | Widen | propext, Classical.choice, Quot.sound |
| `C78_roundtrip_partial` | Describe | propext, Quot.sound |
| `C78_read_exact` | Describe | propext, Quot.sound |
| `C78_like_converter` | Describe | propext, Quot.sound |
| `C78_no_aliases` | Describe | propext, Quot.sound |
| `C78_undeclared` | Describe | propext, Classical.choice, Quot.sound |
| `C78_nul_accepted` | Describe | propext, Classical.choice, Quot.sound |
| `C79_grammar` | Utf8 | propext, Classical.choice, Quot.sound |
| `C79_text_iff` | Utf8 | propext, Classical.choice, Quot.sound |
| `C79_written_iff` | Utf8 | propext, Classical.choice, Quot.sound |
| `C79_written_partial` | Utf8 | propext, Classical.choice, Quot.sound |
| `C79_invalid_written` | Utf8 | propext, Classical.choice, Quot.sound |
| `C79_invalid_read` | Utf8 | propext, Classical.choice, Quot.sound |
| `C79_late_time` | Utf8 | propext, Classical.choice, Quot.sound |
| `C80_nodes_exact` | Compact | propext, Classical.choice, Quot.sound |
| `C80_linear` | Compact | propext, Classical.choice, Quot.sound |
| `C80_sharing` | Compact | propext, Classical.choice, Quot.sound |
| `C80_paths_quadratic` | Compact | propext, Classical.choice, Quot.sound |
| `C81_first_failure` | Message | propext, Classical.choice, Quot.sound |
| `C81_shared_first_failure` | Message | propext, Classical.choice, Quot.sound |
| `C81_one_first_failure` | Message | propext, Classical.choice, Quot.sound |
| `C81_text_true_partial` | Message | propext, Classical.choice, Quot.sound |
| `C81_shared_text_true_partial` | Message | propext, Classical.choice, Quot.sound |
| `C81_integer_expected` | Message | propext, Classical.choice, Quot.sound |
| `C81_path_in_text_partial` | Message | propext, Classical.choice, Quot.sound |
| `C81_ambiguous` | Message | propext, Classical.choice, Quot.sound |
| `C81_cut` | Message | propext, Classical.choice, Quot.sound |
| `C82_left_exact_partial` | ParseLeft | propext, Classical.choice, Quot.sound |
| `C82_left_total_partial` | ParseLeft | propext, Classical.choice, Quot.sound |
| `C82_kept_partial` | ParseLeft | propext, Classical.choice, Quot.sound |
| `C82_other_keys_partial` | ParseLeft | propext, Classical.choice, Quot.sound |
| `C82_other_members_partial` | ParseLeft | propext, Classical.choice, Quot.sound |
| `C82_set_unchanged_partial` | ParseLeft | propext, Classical.choice, Quot.sound |
| `C82_not_atomic` | ParseLeft | propext, Classical.choice, Quot.sound |
| `C82_pointer_replaced` | ParseLeft | propext |
| `C82_pointer_lost` | ParseLeft | propext |
| `C82_bytes_lost` | ParseLeft | propext, Classical.choice, Quot.sound |
| `C82_full_vector` | ParseLeft | propext |
| `C82_full_map` | ParseLeft | propext, Classical.choice, Quot.sound |
| `C83_document_partial` | Rename | propext, Classical.choice, Quot.sound |
| `C83_text_partial` | Rename | propext, Classical.choice, Quot.sound |
| `C83_again_partial` | Rename | propext, Classical.choice, Quot.sound |
| `C83_set_order` | Rename | propext, Classical.choice, Quot.sound |
| `C83_read` | Rename | propext, Classical.choice, Quot.sound |
| `C83_throw` | Rename | propext, Classical.choice, Quot.sound |
| `C83_parse_partial` | Rename | propext, Classical.choice, Quot.sound |
| `C84_parse_partial` | Unshare | propext, Classical.choice, Quot.sound |
| `C84_throw_partial` | Unshare | propext, Classical.choice, Quot.sound |
| `C84_bool_partial` | Unshare | propext, Classical.choice, Quot.sound |
| `C84_own` | Unshare | propext, Classical.choice, Quot.sound |
| `C84_own_throw` | Unshare | propext, Classical.choice, Quot.sound |
| `C84_own_parse_partial` | Unshare | propext, Classical.choice, Quot.sound |
| `C84_masked` | Unshare | propext, Classical.choice, Quot.sound |
| `C84_rejected` | Unshare | propext, Classical.choice, Quot.sound |
| `C84_referenced` | Unshare | propext, Classical.choice, Quot.sound |
| `C85_output` | Wreck | propext, Classical.choice, Quot.sound |
| `C85_only_good_groups` | Wreck | propext, Classical.choice, Quot.sound |
| `C85_dom` | Wreck | propext, Classical.choice, Quot.sound |
| `C85_masked` | Wreck | propext, Classical.choice, Quot.sound |
| `C86_document_partial` | Injective | propext, Classical.choice, Quot.sound |
| `C86_text_partial` | Injective | propext, Classical.choice, Quot.sound |
| `C86_times` | Injective | propext, Classical.choice, Quot.sound |
| `C86_alternatives` | Injective | propext, Classical.choice, Quot.sound |
| `C86_dropped` | Injective | propext, Classical.choice, Quot.sound |
| `C86_paths` | Injective | propext, Classical.choice, Quot.sound |
| `C87_document` | UnshareMore | propext, Classical.choice, Quot.sound |
| `C87_text` | UnshareMore | propext, Classical.choice, Quot.sound |
| `C87_shared` | UnshareMore | propext, Classical.choice, Quot.sound |
| `C88_same_document` | Lend | propext, Classical.choice, Quot.sound |
| `C88_outlives_partial` | Lend | propext, Classical.choice, Quot.sound |
| `C88_strings_outlive` | Lend | propext, Classical.choice, Quot.sound |
| `C88_readable_iff` | Lend | propext, Classical.choice, Quot.sound |
| `C88_dangles` | Lend | propext, Classical.choice, Quot.sound |
| `C89_tokens` | Rfc6901 | propext, Quot.sound |
| `C89_found_partial` | Rfc6901 | propext, Classical.choice, Quot.sound |
| `C89_reference_partial` | Rfc6901 | propext, Classical.choice, Quot.sound |
| `C89_overflow` | Rfc6901 | propext, Classical.choice, Quot.sound |
| `C89_written_partial` | Rfc6901 | propext, Classical.choice, Quot.sound |
| `C89_unescaped` | Rfc6901 | propext, Classical.choice, Quot.sound |
| `C90_date_time_iff` | Annotations | propext, Classical.choice, Quot.sound |
| `C90_date_iff` | Annotations | propext, Classical.choice, Quot.sound |
| `C90_annotated` | Annotations | propext, Classical.choice, Quot.sound |
| `C90_written_partial` | Annotations | propext, Classical.choice, Quot.sound |
| `C90_year_10000` | Annotations | propext, Classical.choice, Quot.sound |
| `C90_read_iff` | Annotations | propext, Classical.choice, Quot.sound |
| `C90_read_moment` | Annotations | propext, Classical.choice, Quot.sound |
| `C90_date_read` | Annotations | propext, Classical.choice, Quot.sound |
| `C91_no_dangling` | ParseMem | propext, Classical.choice, Quot.sound |
| `C91_references` | ParseMem | propext, Classical.choice, Quot.sound |
| `C91_lifetimes` | ParseMem | propext, Classical.choice, Quot.sound |
| `C91_in_place` | ParseMem | propext, Classical.choice, Quot.sound |
| `C91_variable` | ParseMem | propext, Classical.choice, Quot.sound |
| `C91_unwritten` | ParseMem | propext |
| `C91_every_program` | ParseMem | propext, Classical.choice, Quot.sound |
| `C92_read_partial` | Size | propext, Classical.choice, Quot.sound |
| `C92_throw_partial` | Size | propext, Classical.choice, Quot.sound |
| `C92_document` | Size | propext, Classical.choice, Quot.sound |
| `C92_text_partial` | Size | propext, Classical.choice, Quot.sound |
| `C92_moment` | Size | propext, Classical.choice, Quot.sound |
| `C92_parse` | Size | propext, Classical.choice, Quot.sound |
| `C92_left` | Size | propext, Classical.choice, Quot.sound |
| `C92_parse_text` | Size | propext, Classical.choice, Quot.sound |
| `C92_parse_throw` | Size | propext, Classical.choice, Quot.sound |
| `C92_same_names` | Size | propext, Classical.choice, Quot.sound |
| `C92_read_shared_partial` | SizeShared | propext, Classical.choice, Quot.sound |
| `C92_throw_shared_partial` | SizeShared | propext, Classical.choice, Quot.sound |
| `C92_objects_bound` | SizeShared | propext, Classical.choice, Quot.sound |
| `C92_objects_partial` | SizeShared | propext, Classical.choice, Quot.sound |
| `C92_objects_throw_partial` | SizeShared | propext, Classical.choice, Quot.sound |
| `C92_measures` | SizeShared | propext, Quot.sound |
| `C92_refused_alternative` | SizeShared | propext, Classical.choice, Quot.sound |
| `C93_document_partial` | Order | propext, Classical.choice, Quot.sound |
| `C93_verdict` | Order | propext, Classical.choice, Quot.sound |
| `C93_size` | Order | propext, Classical.choice, Quot.sound |
| `C93_reading` | Order | propext, Classical.choice, Quot.sound |
| `C93_same_value_partial` | Order | propext, Classical.choice, Quot.sound |
| `C93_shared` | Order | propext, Classical.choice, Quot.sound |
| `C94_types_partial` | Depth | propext, Classical.choice, Quot.sound |
| `C94_document` | Depth | propext, Classical.choice, Quot.sound |
| `C94_value` | Depth | propext, Classical.choice, Quot.sound |
| `C94_nesting` | Depth | propext, Classical.choice, Quot.sound |
| `C94_exact_partial` | Depth | propext, Classical.choice, Quot.sound |
| `C94_recursive` | Depth | propext, Classical.choice, Quot.sound |
| `C95_read_partial` | Edit | propext, Classical.choice, Quot.sound |
| `C95_variant` | Edit | propext, Classical.choice, Quot.sound |
| `C95_duplicate` | Edit | propext, Classical.choice, Quot.sound |
| `C95_write_partial` | Edit | propext, Classical.choice, Quot.sound |
| `C95_text_partial` | Edit | propext, Classical.choice, Quot.sound |
| `C95_parse_partial` | Edit | propext, Classical.choice, Quot.sound |
| `C96_not_early` | ParseViable | propext, Quot.sound |
| `C96_continues_partial` | ParseViable | propext, Classical.choice, Quot.sound |
| `C96_refused_partial` | ParseViable | propext, Classical.choice, Quot.sound |
| `C96_enum_late` | ParseViable | propext, Classical.choice, Quot.sound |
| `C96_deep_late` | ParseViable | propext, Quot.sound |
| `C97_success` | SerLeft | propext, Classical.choice, Quot.sound |
| `C97_failure` | SerLeft | propext, Classical.choice, Quot.sound |
| `C97_writer` | SerLeft | propext, Classical.choice, Quot.sound |
| `C97_writer_success` | SerLeft | propext, Classical.choice, Quot.sound |
| `C97_overwritten` | SerLeft | propext, Classical.choice, Quot.sound |
| `C98_exact` | ReadLeft | propext, Classical.choice, Quot.sound |
| `C98_shared` | ReadLeft | propext, Classical.choice, Quot.sound |
| `C98_shaped` | ReadLeft | propext, Classical.choice, Quot.sound |
| `C98_member` | ReadLeft | propext, Classical.choice, Quot.sound |
| `C98_not_atomic` | ReadLeft | propext, Classical.choice, Quot.sound |
| `C99_bool_partial` | Uninit | propext, Classical.choice, Quot.sound |
| `C99_throw_partial` | Uninit | propext, Classical.choice, Quot.sound |
| `C99_parse` | Uninit | propext, Quot.sound |
| `C99_parse_throw_partial` | Uninit | propext, Classical.choice, Quot.sound |
| `C99_bool_uninitialised` | Uninit | propext, Classical.choice, Quot.sound |
| `C99_parse_uninitialised` | Uninit | propext, Classical.choice, Quot.sound |
| `C99_shared_bool_partial` | UninitShared | propext, Classical.choice, Quot.sound |
| `C99_shared_throw_partial` | UninitShared | propext, Classical.choice, Quot.sound |
| `C100_document_partial` | Leak | propext, Classical.choice, Quot.sound |
| `C100_text_partial` | Leak | propext, Classical.choice, Quot.sound |
| `C100_time_iff` | Leak | propext, Classical.choice, Quot.sound |
| `C100_leak` | Leak | propext, Classical.choice, Quot.sound |
| `C101_exclusive_partial` | Threads | propext, Quot.sound |
| `C101_mixture` | Threads | propext, Quot.sound |
| `C101_two_iff` | Threads | propext, Quot.sound |
| `C101_other_text` | Threads | propext, Quot.sound |
| `C101_no_such_day` | Threads | propext, Classical.choice, Quot.sound |
| `C101_alone` | Threads | propext, Quot.sound |
| `C101_document_partial` | Threads | propext, Classical.choice, Quot.sound |
| `C102_key` | StaticInit | propext, Quot.sound |
| `C102_never_wrong` | StaticInit | propext, Classical.choice, Quot.sound |
| `C102_accepted_iff` | StaticInit | propext, Classical.choice, Quot.sound |
| `C102_refused` | StaticInit | propext, Classical.choice, Quot.sound |
| `C102_violated` | StaticInit | propext, Classical.choice, Quot.sound |
| `C102_same_partial` | StaticInit | propext, Classical.choice, Quot.sound |
| `C102_throw` | StaticInit | propext, Classical.choice, Quot.sound |
| `C103_lost` | RefKey | propext, Classical.choice, Quot.sound |
| `C103_one_map` | RefKey | propext, Classical.choice, Quot.sound |
| `C103_not_shared_partial` | RefKey | propext, Classical.choice, Quot.sound |
| `C103_aliased` | RefKey | propext, Classical.choice, Quot.sound |
| `C103_confused` | RefKey | propext, Classical.choice, Quot.sound |
| `C103_parser_map` | RefKey | propext, Classical.choice, Quot.sound |
| `C103_reference_read` | RefKey | propext, Classical.choice, Quot.sound |
| `C104_confused` | OneAddress | propext, Classical.choice, Quot.sound |
| `C104_exact_partial` | OneAddress | propext, Classical.choice, Quot.sound |
| `C105_exact` | Dispatch | propext, Quot.sound |
| `C105_more` | Dispatch | propext, Quot.sound |
| `C105_bytes` | Dispatch | propext, Classical.choice, Quot.sound |
| `C105_dictionary` | Dispatch | propext, Classical.choice, Quot.sound |
| `C105_same_document_partial` | Dispatch | propext, Classical.choice, Quot.sound |
| `C106_writers` | Dispatch | propext, Quot.sound |
| `C106_supported_iff` | Dispatch | propext, Classical.choice, Quot.sound |
| `C106_read_written_partial` | Dispatch | propext, Classical.choice, Quot.sound |
| `C106_written_read_partial` | Dispatch | propext, Classical.choice, Quot.sound |
| `C106_readers_partial` | Dispatch | propext, Classical.choice, Quot.sound |
| `C106_schema_partial` | Dispatch | propext, Classical.choice, Quot.sound |
| `C106_not_supported` | Dispatch | propext |
| `C107_exact_partial` | Dispatch | propext, Classical.choice, Quot.sound |
| `C107_text_exact_partial` | Dispatch | propext, Classical.choice, Quot.sound |
| `C107_not_text` | Dispatch | propext, Classical.choice, Quot.sound |
| `C107_types` | Dispatch | propext, Quot.sound |
| `C108_document` | Replace | propext, Classical.choice, Quot.sound |
| `C108_exact` | Replace | propext, Classical.choice, Quot.sound |
| `C108_text` | Replace | propext, Classical.choice, Quot.sound |
| `C109_calls_partial` | Effort | propext, Classical.choice, Quot.sound |
| `C109_bound_partial` | Effort | propext, Classical.choice, Quot.sound |
| `C109_unshared_partial` | Effort | propext, Classical.choice, Quot.sound |
| `C109_text_calls` | Effort | propext, Classical.choice, Quot.sound |
| `C109_text_calls_exact` | Effort | propext, Classical.choice, Quot.sound |
| `C109_text_bound_partial` | Effort | propext, Classical.choice, Quot.sound |
| `C109_chain` | Effort | propext, Classical.choice, Quot.sound |
| `C109_not_linear` | Effort | propext, Classical.choice, Quot.sound |
| `C109_exponential` | Effort | propext, Classical.choice, Quot.sound |
| `C110_places_partial` | GenWork | propext, Classical.choice, Quot.sound |
| `C110_calls_partial` | GenWork | propext, Classical.choice, Quot.sound |
| `C110_linear_partial` | GenWork | propext, Classical.choice, Quot.sound |
| `C110_exponential` | GenWork | propext, Classical.choice, Quot.sound |
| `C111_dom_partial` | SchemaConverse | propext, Classical.choice, Quot.sound |
| `C111_exactly_partial` | SchemaConverse | propext, Classical.choice, Quot.sound |
| `C111_parser_partial` | SchemaConverse | propext, Classical.choice, Quot.sound |
| `C111_unknown` | SchemaConverse | propext, Classical.choice, Quot.sound |
| `C111_repeated` | SchemaConverse | propext, Classical.choice, Quot.sound |
| `C111_variant` | SchemaConverse | propext, Classical.choice, Quot.sound |
| `C111_reference` | SchemaConverse | propext, Classical.choice, Quot.sound |
| `C111_missing` | SchemaConverse | propext, Classical.choice, Quot.sound |
| `C112_valid` | SchemaExact | propext, Classical.choice, Quot.sound |
| `C112_invalid` | SchemaExact | propext, Classical.choice, Quot.sound |
| `C113_loosened_partial` | SchemaExact | propext, Classical.choice, Quot.sound |
| `C113_written_partial` | SchemaExact | propext, Classical.choice, Quot.sound |
| `C113_reads_partial` | SchemaExact | propext, Classical.choice, Quot.sound |
| `C113_variant` | SchemaExact | propext, Classical.choice, Quot.sound |
| `C113_removed` | SchemaExact | propext, Classical.choice, Quot.sound |
| `C114_linear_partial` | SchemaSize | propext, Classical.choice, Quot.sound |
| `C114_calls_partial` | SchemaSize | propext, Classical.choice, Quot.sound |
| `C114_exponential` | SchemaSize | propext, Classical.choice, Quot.sound |
| `C115_part` | Relocate | propext, Classical.choice, Quot.sound |
| `C115_vector` | Relocate | propext, Classical.choice, Quot.sound |
| `C115_vector_fails` | Relocate | propext, Classical.choice, Quot.sound |
| `C115_tuple` | Relocate | propext, Classical.choice, Quot.sound |
| `C115_map` | Relocate | propext, Classical.choice, Quot.sound |
| `C115_unordered` | Relocate | propext, Classical.choice, Quot.sound |
| `C115_pairs` | Relocate | propext, Classical.choice, Quot.sound |
| `C115_class` | Relocate | propext, Classical.choice, Quot.sound |
| `C115_written` | Relocate | propext, Classical.choice, Quot.sound |
| `C115_common` | Relocate | propext, Classical.choice, Quot.sound |
| `C116_every_pointer_partial` | ReplaceRead | propext, Classical.choice, Quot.sound |
| `C117_document` | SchemaSame | propext, Classical.choice, Quot.sound |
| `C117_same_documents_partial` | SchemaSame | propext, Classical.choice, Quot.sound |
| `C117_enumeration` | SchemaSame | propext, Classical.choice, Quot.sound |
| `C117_reference` | SchemaSame | propext, Classical.choice, Quot.sound |
| `C117_parser` | SchemaSame | propext, Classical.choice, Quot.sound |
| `C118_vector` | ReadParts | propext, Classical.choice, Quot.sound |
| `C118_vector_read` | ReadParts | propext, Classical.choice, Quot.sound |
| `C118_vector_threw` | ReadParts | propext, Classical.choice, Quot.sound |
| `C118_set` | ReadParts | propext, Classical.choice, Quot.sound |
| `C118_dictionary` | ReadParts | propext, Classical.choice, Quot.sound |
| `C118_array` | ReadParts | propext, Classical.choice, Quot.sound |
| `C118_tuple_partial` | ReadParts | propext, Classical.choice, Quot.sound |
| `C118_map` | ReadParts | propext, Classical.choice, Quot.sound |
| `C118_pointer_partial` | ReadParts | propext, Classical.choice, Quot.sound |
| `C118_class_partial` | ReadParts | propext, Classical.choice, Quot.sound |
| `C118_initial` | ReadParts | propext, Classical.choice, Quot.sound |
| `C118_shared` | ReadParts | propext, Classical.choice, Quot.sound |
| `C119_vector` | ParseAppend | propext, Quot.sound |
| `C119_appended` | ParseAppend | propext, Quot.sound |
| `C119_set` | ParseAppend | propext, Quot.sound |
| `C119_map` | ParseAppend | propext, Quot.sound |
| `C119_class` | ParseAppend | propext, Quot.sound |
| `C119_dom` | ParseAppend | propext, Classical.choice, Quot.sound |
| `C120_beginning` | Truncate | propext, Classical.choice, Quot.sound |
| `C120_incomplete_partial` | Truncate | propext, Classical.choice, Quot.sound |
| `C120_written_partial` | Truncate | propext, Classical.choice, Quot.sound |
| `C120_joined` | Truncate | propext, Classical.choice, Quot.sound |
| `C120_number` | Truncate | propext, Classical.choice, Quot.sound |
| `C121_schema` | NumberSchema | propext, Classical.choice, Quot.sound |
| `C121_dom_partial` | SameNumber | propext, Classical.choice, Quot.sound |
| `C121_parser_partial` | SameNumber | propext, Classical.choice, Quot.sound |
| `C121_never_differ` | SameNumber | propext, Classical.choice, Quot.sound |
| `C121_integers` | SameNumber | propext |
| `C121_variant` | SameNumber | propext, Classical.choice, Quot.sound |
| `C121_zero` | SameNumber | propext, Classical.choice, Quot.sound |
| `C122_verdict` | Shuffle | propext, Classical.choice, Quot.sound |
| `C122_shared_partial` | Shuffle | propext, Classical.choice, Quot.sound |
| `C122_error` | Shuffle | propext, Classical.choice, Quot.sound |
| `C122_shared_error_partial` | Shuffle | propext, Classical.choice, Quot.sound |
| `C122_schema` | Shuffle | propext, Classical.choice, Quot.sound |
| `C122_value_partial` | Shuffle | propext, Classical.choice, Quot.sound |
| `C122_overlap` | Shuffle | propext, Classical.choice, Quot.sound |
| `C123_verdict` | Exchange | propext, Classical.choice, Quot.sound |
| `C123_error` | Exchange | propext, Classical.choice, Quot.sound |
| `C123_shared_partial` | Exchange | propext, Classical.choice, Quot.sound |
| `C123_references` | Exchange | propext, Classical.choice, Quot.sound |
| `C123_schema` | ExchangeSchema | propext, Classical.choice, Quot.sound |
| `C123_schema_set` | ExchangeSchema | propext, Classical.choice, Quot.sound |
| `C124_search` | Retable | propext, Quot.sound |
| `C124_write` | Retable | propext, Classical.choice, Quot.sound |
| `C124_read` | Retable | propext, Classical.choice, Quot.sound |
| `C124_parse` | Retable | propext, Quot.sound |
| `C124_repeated` | Retable | propext, Classical.choice, Quot.sound |
| `C125_write` | Retable | propext, Classical.choice, Quot.sound |
| `C125_read` | Retable | propext, Classical.choice, Quot.sound |
| `C125_parse` | Retable | propext, Quot.sound |
| `C125_merged` | Retable | propext, Classical.choice, Quot.sound |
| `C126_verdict_partial` | Listed | propext, Classical.choice, Quot.sound |
| `C126_shared_partial` | Listed | propext, Classical.choice, Quot.sound |
| `C126_bool` | Listed | propext, Classical.choice, Quot.sound |
| `C126_variant` | Listed | propext, Classical.choice, Quot.sound |
| `C126_which` | Listed | propext, Classical.choice, Quot.sound |
| `C126_parse_partial` | ListedParse | propext, Classical.choice, Quot.sound |
| `C126_schema` | ListedSchema | propext, Classical.choice, Quot.sound |
| `C126_schema_exists` | ListedSchema | propext, Classical.choice, Quot.sound |
| `C126_schema_text` | ListedSchema | propext, Classical.choice, Quot.sound |
<!-- end of axioms -->
