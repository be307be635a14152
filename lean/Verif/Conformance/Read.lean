import Verif.Conformance

/-!
# test/deserialize_*.cpp on the model
-/

namespace Verif.Conformance
open Verif.Core Verif.Numeric Verif.Text Verif.EnumConv

/-- Bytes, one per character. -/
def bytes (s : String) : Val := .prim (.bytes (lit s))
/-- `TestValue` and the other classes with one string. -/
def val (s : String) : Val := .obj [vs s]
/-- `make_datetime`. -/
def moment (year month day hour minute second : Nat) : Val :=
  .prim (.time ((DateTime.makeDatetime env.clk year month day hour minute second).getD 0))

/-- The text with quotation marks. -/
def q (s : String) : Str := 34 :: (u8 s ++ [34])

/-- Deserialization, Bytes (test/deserialize_bytes.cpp:9-31). -/
example : [("", ""), ("Zg==", "f"), ("Zm8=", "fo"), ("Zm9v", "foo"), ("Zm9vYg==", "foob"), ("Zm9vYmE=", "fooba"),
    ("Zm9vYmFy", "foobar")].all (fun x => reads tBytes (q x.1) (bytes x.2)) = true := by decide +kernel

example : ["\"A\"", "\"AA\"", "\"AAA\"", "true", "23", "[]", "[\"Z\",\"m\",\"9\",\"v\"]", "{}"].all
    (fun s => refuses tBytes (u8 s)) = true := by decide +kernel

/-- Deserialization, Vector (test/deserialize_container.cpp). -/
example : (reads (.vec tInt) (u8 "[]") (.seq []) &&
    reads (.vec tInt) (u8 "[1, 2, 3]") (.seq [vi 1, vi 2, vi 3]) &&
    reads (.vec tFloat) (u8 "[1.5, 2.5, 3.5]") (.seq [vf .float "1.5", vf .float "2.5", vf .float "3.5"]) &&
    reads (.vec tString) (u8 "[\"one\", \"two\"]") (.seq [vs "one", vs "two"]) &&
    reads (.vec (.vec tInt)) (u8 "[[1], [1, 2], [1, 2, 3]]") (.seq [.seq [vi 1], .seq [vi 1, vi 2], .seq [vi 1, vi 2, vi 3]]) &&
    reads (.vec (.cls 1)) (u8 "[{\"value\":\"a\"}, {\"value\":\"b\"}, {}]") (.seq [val "a", val "b", val "default"]) &&
    reads (.vec (.cls 1)) (u8 "[{\"value\":\"a\"}, {\"value\":\"b\"}, {\"value\":\"default\"}]") (.seq [val "a", val "b", val "default"]) &&
    reads (.vec (.cls 0)) (u8 "[{\"value\":\"a\"}, {\"value\":\"b\"}, {\"value\":\"c\"}]") (.seq [val "a", val "b", val "c"])) = true := by decide +kernel

example : ([(Ty.vec tInt, "[\"one\"]"), (.vec tString, "[2,3]"), (.vec tInt, "true"), (.vec tInt, "23"), (.vec tInt, "\"string\""),
    (.vec tInt, "{}")].all fun x => refuses x.1 (u8 x.2)) = true := by decide +kernel

/-- Deserialization, Set. -/
example : (reads (.set tInt) (u8 "[]") (.set []) && reads (.set tString) (u8 "[]") (.set []) &&
    reads (.set tInt) (u8 "[1, 2, 3]") (.set [vi 1, vi 2, vi 3]) &&
    reads (.set tFloat) (u8 "[1.5, 2.5, 3.5]") (.set [vf .float "1.5", vf .float "2.5", vf .float "3.5"]) &&
    reads (.set tString) (u8 "[\"one\", \"two\"]") (.set [vs "one", vs "two"]) &&
    reads (.set (.cls 1)) (u8 "[{\"value\":\"a\"}, {\"value\":\"b\"}, {\"value\":\"c\"}]") (.set [val "a", val "b", val "c"]) &&
    reads (.set (.cls 0)) (u8 "[{\"value\":\"a\"}, {\"value\":\"b\"}, {\"value\":\"c\"}]") (.set [val "a", val "b", val "c"])) = true := by
  decide +kernel

example : ([(Ty.set tInt, "[\"one\"]"), (.set tString, "[2,3]"), (.set tInt, "true"), (.set tInt, "23"), (.set tInt, "\"string\""),
    (.set tInt, "{}")].all fun x => refuses x.1 (u8 x.2)) = true := by decide +kernel

/-- Deserialization, Map and UnorderedMap. -/
example : ([true, false].all fun o =>
    reads (.map o tInt) (u8 "{}") (.map []) && reads (.map o tString) (u8 "{}") (.map []) &&
    reads (.map o tInt) (u8 "{\"key1\": 1, \"key2\": 2, \"key3\": 3}") (.map [(lit "key1", vi 1), (lit "key2", vi 2), (lit "key3", vi 3)]) &&
    reads (.map o tString) (u8 "{\"key1\": \"value1\", \"key2\": \"value2\"}") (.map [(lit "key1", vs "value1"), (lit "key2", vs "value2")]) &&
    reads (.map o (.vec tInt)) (u8 "{\"key1\": [1, 2], \"key2\": [4, 8, 16, 32]}")
      (.map [(lit "key1", .seq [vi 1, vi 2]), (lit "key2", .seq [vi 4, vi 8, vi 16, vi 32])]) &&
    reads (.map o (.cls 0)) (u8 "{\"key1\":{\"value\":\"a\"},\"key2\":{\"value\":\"b\"},\"key3\":{\"value\":\"c\"}}")
      (.map [(lit "key1", val "a"), (lit "key2", val "b"), (lit "key3", val "c")]) &&
    ["true", "23", "\"string\"", "[]", "[1]"].all fun s => refuses (.map o tInt) (u8 s)) = true := by decide +kernel

/-- Deserialization, DateTimeTypes (test/deserialize_datetime.cpp). -/
example : (reads tTime (q "1982-10-23T01:20:40Z") (moment 1982 10 23 1 20 40) &&
    reads tTime (q "2022-02-01T23:02:01Z") (moment 2022 2 1 23 2 1) && reads tTime (q "2000-02-29T00:00:00Z") (moment 2000 2 29 0 0 0) &&
    reads tTime (q "2000-03-31T00:00:00Z") (moment 2000 3 31 0 0 0) && reads tTime (q "2022-02-01 23:02:01Z") (moment 2022 2 1 23 2 1)) = true := by
  decide +kernel

example : (["\"22-02-01T23:02:01Z\"", "\"2022-02-01T23:02:01\"", "\"2022-02-01T23:02:01A\"", "\"YYYY-02-01T23:02:01Z\"", "\"2022-MM-01T23:02:01Z\"",
    "\"2022-00-01T23:02:01Z\"", "\"2022-99-01T23:02:01Z\"", "\"2022-02-DDT23:02:01Z\"", "\"2022-02-00T23:02:01Z\"", "\"2022-02-30T23:02:01Z\"",
    "\"2022-02-99T23:02:01Z\"", "\"2022-02-01THH:02:01Z\"", "\"2022-02-01T99:02:01Z\"", "\"2022-02-01T23:MM:01Z\"", "\"2022-02-01T23:99:01Z\"",
    "\"2022-02-01T23:02:SSZ\"", "\"2022-02-01T23:02:99Z\"", "\"2022 02-01T23:02:01Z\"", "\"2022-02 01T23:02:01Z\"", "\"2022-02-01X23:02:01Z\"",
    "\"2022-02-01T23 02:01Z\"", "\"2022-02-01T23:02 01Z\"", "true", "23", "[]", "{}"].all fun s => refuses tTime (u8 s)) = true := by decide +kernel

example : (reads tDate (q "1982-10-23") (.prim (.date 1982 10 23)) && reads tDate (q "2022-02-01") (.prim (.date 2022 2 1)) &&
    reads tDate (q "2000-02-29") (.prim (.date 2000 2 29)) && reads tDate (q "2000-03-31") (.prim (.date 2000 3 31))) = true := by decide +kernel

example : (["\"22-02-01\"", "\"YYYY-02-01\"", "\"2022-MM-01\"", "\"2022-00-01\"", "\"2022-99-01\"", "\"2022-02-DD\"", "\"2022-02-00\"",
    "\"2022-02-30\"", "\"2022-02-99\"", "\"2022 02-01\"", "\"2022-02 01\"", "true", "23", "[]", "{}"].all fun s => refuses tDate (u8 s)) = true := by
  decide +kernel

/-- `enum class Side : short` and `enum class Suit` (test/example_enums.hpp), `enum class Esper` (test/example_enum_traits.hpp). -/
abbrev side : Ty := .prim (.enumInt ⟨.w16, true⟩)
abbrev suit : Ty := .prim (.enumInt ⟨.w32, true⟩)
abbrev esper : Ty := .prim (.enumStr [(0, lit "Unu"), (1, lit "Du"), (2, lit "Tri"), (3, lit "Kvar"), (4, lit "Kvin"), (5, lit "Ses"),
  (6, lit "Sep"), (7, lit "Ok"), (8, lit "Naux"), (9, lit "Dek")])

/-- Deserialization, EnumTypes (test/deserialize_enum.cpp). -/
example : (reads side (u8 "1") (vi 1) && reads side (u8 "2") (vi 2) &&
    (["\"Left\"", "\"Right\"", "true", "\"string\"", "[]", "{}"].all fun s => refuses side (u8 s)) &&
    reads suit (u8 "0") (vi 0) && reads suit (u8 "1") (vi 1) && reads suit (u8 "2") (vi 2) && reads suit (u8 "3") (vi 3) &&
    refuses suit (u8 "\"Diamonds\"") && refuses suit (u8 "\"Spades\"") &&
    reads esper (q "Unu") (vi 0) && reads esper (q "Du") (vi 1) && reads esper (q "Kvin") (vi 4) && reads esper (q "Dek") (vi 9) &&
    ["0", "1", "\"\"", "\"NaN\""].all fun s => refuses esper (u8 s)) = true := by decide +kernel

/-- Deserialization, SpecialTypes and BooleanTypes (test/deserialize_fundamental.cpp). -/
example : (reads (.prim .null) (u8 "null") (.prim .null) && reads (.prim .bool) (u8 "true") (.prim (.bool true)) &&
    reads (.prim .bool) (u8 "false") (.prim (.bool false)) &&
    ["0", "1", "\"string\"", "[]", "{}"].all fun s => refuses (.prim .bool) (u8 s)) = true := by decide +kernel

/-- `test_deserialize_integer_type<T>()`. -/
def readsInteger (t : IntTy) : Bool :=
  let T : Ty := .prim (.int t)
  reads T (lit "0") (vi 0) && reads T (lit "1") (vi 1) && (!t.signed || reads T (lit "-1") (vi (-1))) &&
  reads T (decimalInt t.min) (vi t.min) && reads T (decimalInt t.max) (vi t.max) &&
  ["1.0", "-1.0", "true", "\"string\"", "[]", "{}"].all fun s => refuses T (u8 s)

/-- `test_deserialize_float_type<T>()`. -/
def readsFloat (t : FltTy) : Bool :=
  let T : Ty := .prim (.flt t)
  (["0", "0.0", "1", "1.0", "-1", "-1.0", "0.125", "-4.5", "2.5e8", "2.5e-8", "-2.5e8", "2.5e04", "2.5e-04", "-2.5e04", "2.500e4", "2.500e-4",
    "-2.500e4", "2.5e16", "2.5e-16", "-2.5e16"].all fun s => reads T (u8 s) (vf t s)) &&
  ["true", "\"string\"", "[]", "{}"].all fun s => refuses T (u8 s)

/-- Deserialization, NumericTypes. -/
example : ([Width.w8, .w16, .w32, .w64].all fun w => readsInteger ⟨w, true⟩ && readsInteger ⟨w, false⟩) = true := by decide +kernel

example : (readsFloat .float && readsFloat .double) = true := by decide +kernel

/-- The conversions of the tests are those of the compiler, for instance `2.5e8 = 1953125 * 2 ^ 7` and `0.1f = 13421773 * 2 ^ -27`. -/
example : (same (vf .double "2.5e8") (.prim (.flt (.fin false 976562 7))) && same (vf .double "2.500e-4") (vf .double "0.00025") &&
    same (vf .float "0.1") (.prim (.flt (.fin false 6710886 (-27)))) && !same (vf .float "0.1") (vf .double "0.1")) = true := by decide +kernel

/-- Deserialization, Pointer (test/deserialize_object.cpp). -/
example : (reads (.uptr tInt) (u8 "23") (.uptr (vi 23)) && reads (.sptr tInt) (u8 "23") (.sptr 0 (vi 23)) &&
    reads (.uptr tString) (q "string") (.uptr (vs "string")) && reads (.sptr tString) (q "string") (.sptr 0 (vs "string")) &&
    reads (.uptr (.cls 0)) (u8 "{\"value\": \"string\"}") (.uptr (val "string")) &&
    reads (.sptr (.cls 0)) (u8 "{\"value\": \"string\"}") (.sptr 0 (val "string")) &&
    reads (.sptr (.cls 1)) (u8 "{}") (.sptr 0 (val "default"))) = true := by decide +kernel

/-- The text of the object with all members (test/deserialize_object.cpp, test/serialize_object.cpp). -/
def dtoText : Str := u8 ("{" ++ "\"bool_value\":true," ++ "\"bool_list\":[false,false,true]," ++ "\"int_value\":42," ++ "\"int_list\":[82,10,23]," ++
  "\"string_value\":\"test string\"," ++ "\"string_list\":[\"one\",\"two\",\"three\"]," ++ "\"object_value\":{\"member_value\":\"value\"}," ++
  "\"object_list\":[{\"member_value\":\"value\"},{\"member_value\":\"value\"}]" ++ "}")

/-- The object with all members. -/
def dto : Val := .obj [.prim (.bool true), .seq [.prim (.bool false), .prim (.bool false), .prim (.bool true)], vi 42,
  .seq [vi 82, vi 10, vi 23], vs "test string", .seq [vs "one", vs "two", vs "three"], val "value", .seq [val "value", val "value"]]

/-- Deserialization, Object. -/
example : (reads (.cls 0) (u8 "{\"value\":\"test string\"}") (val "test string") && reads (.cls 1) (u8 "{}") (val "default") &&
    reads (.cls 1) (u8 "{\"value\":\"test string\"}") (val "test string") &&
    reads (.cls 2) (u8 "{\"value\":\"base\",\"member\":\"derived\"}") (.obj [vs "base", vs "derived"]) &&
    reads (.cls 4) (u8 "{\"first\":1,\"second\":2}") (.obj [vi 1, vi 2]) && reads (.cls 6) dtoText dto &&
    reads (.cls 3) (u8 "{\"member\": {\"value\": \"string\"}}") (.obj [val "string"]) &&
    refuses (.cls 3) (u8 "{\"member\": {\"value\": 23}}")) = true := by decide +kernel

/-- Deserialization, Optional. -/
example : (reads (.cls 7) (u8 "{}") (.obj [.absent]) && reads (.cls 7) (u8 "{\"optional_value\": 42}") (.obj [.present (vi 42)])) = true := by
  decide +kernel

/-- The addresses of the shared objects in a list of pointers. -/
def addresses : Val → List Nat
  | .seq vs => vs.filterMap fun v => match v with | .sptr a _ => some a | _ => none
  | .sptr a _ => [a]
  | _ => []

/-- Deserialization, BackReferenceArray. -/
example : (match deserTextThrow R env (.cls 8) (u8 ("{\"values\":[" ++ "{\"value\":\"string\"}," ++ "{\"value\":\"string\"}," ++
      "{\"$ref\":\"/values/1\"}," ++ "{\"$ref\":\"/values/1\"}" ++ "]}")) 0 with
    | .parsed (.returned (.obj [l])) => (match addresses l with | [a, b, c, d] => a != b && b == c && c == d | _ => false)
    | _ => false) = true := by decide +kernel

/-- The text of the second test of references. -/
def refText : Str := u8 ("{" ++ "\"outer\": {\"value\": \"string\"}," ++ "\"inner\": [" ++ "{\"$ref\": \"/outer\"}," ++ "{\"$ref\": \"/outer\"}" ++ "]" ++ "}")

/-- Deserialization, BackReferenceObject. -/
example : (match deserTextThrow R env (.cls 9) refText 0 with
    | .parsed (.returned (.obj [o, l])) => (match addresses o, addresses l with | [a], [b, c] => a == b && a == c | _, _ => false)
    | _ => false) = true := by decide +kernel

example : (match parseTextThrow R env host (.cls 9) refText 0 with | .parseError => true | _ => false) = true := by decide +kernel

/-- Deserialization, StringTypes (test/deserialize_string.cpp). -/
example : (reads tString (q "") (vs "") && reads tString (q "test string") (vs "test string") &&
    reads tString (q "test\\u0000string") (vs "test\x00string") && reads tString (q "árvíztűrő tükörfúrógép") (vs "árvíztűrő tükörfúrógép") &&
    ["true", "23", "[]", "{}"].all fun s => refuses tString (u8 s)) = true := by decide +kernel

/-- Deserialization, Array (test/deserialize_tuple.cpp). -/
example : (reads (.arr 0 tInt) (u8 "[]") (.tup []) && reads (.arr 3 tInt) (u8 "[1, 2, 3]") (.tup [vi 1, vi 2, vi 3]) &&
    reads (.arr 2 tString) (u8 "[\"one\", \"two\"]") (.tup [vs "one", vs "two"]) &&
    reads (.arr 3 (.cls 0)) (u8 "[{\"value\":\"a\"},{\"value\":\"b\"},{\"value\":\"c\"}]") (.tup [val "a", val "b", val "c"]) &&
    (["[]", "[1]", "[1,2,3]", "[\"one\",\"two\"]", "true", "23", "\"string\"", "{}"].all fun s => refuses (.arr 2 tInt) (u8 s)) &&
    refuses (.arr 2 tString) (u8 "[1,2]")) = true := by decide +kernel

/-- Deserialization, Pair and Tuple. -/
example : (reads (.tuple [tInt, tString]) (u8 "[19, \"eighty-two\"]") (.tup [vi 19, vs "eighty-two"]) &&
    reads (.tuple []) (u8 "[]") (.tup []) && reads (.tuple [tString]) (u8 "[\"value\"]") (.tup [vs "value"]) &&
    reads (.tuple [tInt, .cls 0]) (u8 "[23, {\"value\": \"string\"}]") (.tup [vi 23, val "string"]) &&
    ["[1]", "[1,\"string1\",23,\"string2\"]", "true", "23", "\"string\"", "{}"].all fun s => refuses (.tuple [tInt, tString]) (u8 s)) = true := by
  decide +kernel

/-- Deserialization, Variant (test/deserialize_variant.cpp); the parser does not support variants. -/
example : (readsDom (.variant [tInt, tString]) (q "value") (.alt 1 (vs "value")) && readsDom (.variant [tInt, tString]) (u8 "23") (.alt 0 (vi 23)) &&
    (["", "null", "true", "4.5", "[23]", "{}"].all fun s =>
      match deserText R env (.variant [tInt, tString]) (u8 s) (defaultVal (.variant [tInt, tString])) 0 with | some (false, _) => true | _ => false) &&
    readsDom (.variant [tString, .cls 0]) (q "value") (.alt 0 (vs "value")) &&
    readsDom (.variant [tString, .cls 0]) (u8 "{\"value\": \"string\"}") (.alt 1 (val "string")) &&
    readsDom (.variant [.cls 0, .cls 3]) (u8 "{\"value\": \"string\"}") (.alt 0 (val "string")) &&
    readsDom (.variant [.cls 0, .cls 3]) (u8 "{\"member\":{\"value\": \"string\"}}") (.alt 1 (.obj [val "string"]))) = true := by decide +kernel

/-- Deserialization, ErrorReporting (test/main.cpp:13-46). -/
example : (match parseTextThrow R env host (.cls 11) (u8 "{\"bool_value\": true, []}") 0 with | .parseError => true | _ => false) = true := by
  decide +kernel

example : (match parseTextThrow R env host (.cls 11) (u8 "{\"bool_value\": true, \"string_value\": []}") 0 with | .parseError => true | _ => false) =
    true := by decide +kernel

example : (match deserTextThrow R env (.cls 11) (u8 ("{" ++ "\"bool_value\": true," ++ "\"string_value\": \"\"," ++ "\"string_list\": [\"a\",23]" ++ "}")) 0 with
    | .parsed (.threw path _) => decide (path = lit "/string_list/1") | _ => false) = true := by decide +kernel

end Verif.Conformance
