import Verif.Conformance.Read

/-!
# The serialization tests, run on the model (test/serialize_*.cpp)
-/

namespace Verif.Conformance
open Verif.Core Verif.Numeric Verif.Text Verif.EnumConv

/-- Serialization, Bytes (test/serialize_bytes.cpp). -/
example : ([("", ""), ("f", "Zg=="), ("fo", "Zm8="), ("foo", "Zm9v"), ("foob", "Zm9vYg=="), ("fooba", "Zm9vYmE="), ("foobar", "Zm9vYmFy")].all
    fun x => writes tBytes (bytes x.1) (q x.2)) = true := by decide +kernel

/-- Serialization, Vector (test/serialize_container.cpp). -/
example : (writes (.vec tInt) (.seq []) (u8 "[]") && writes (.vec tInt) (.seq [vi 1, vi 2, vi 3]) (u8 "[1,2,3]") &&
    writes (.vec tFloat) (.seq [vf .float "1.5", vf .float "2.5", vf .float "3.5"]) (u8 "[1.5,2.5,3.5]") &&
    writes (.vec (.vec tInt)) (.seq [.seq [vi 1], .seq [vi 1, vi 2], .seq [vi 1, vi 2, vi 3]]) (u8 "[[1],[1,2],[1,2,3]]") &&
    writes (.vec (.cls 1)) (.seq [val "a", val "b", val "default"]) (u8 "[{\"value\":\"a\"},{\"value\":\"b\"},{\"value\":\"default\"}]") &&
    writes (.vec (.cls 0)) (.seq [val "a", val "b", val "c"]) (u8 "[{\"value\":\"a\"},{\"value\":\"b\"},{\"value\":\"c\"}]") &&
    writes (.vec tString) (.seq [vs "one", vs "two"]) (u8 "[\"one\",\"two\"]")) = true := by decide +kernel

/-- Serialization, Set. -/
example : (writes (.set tInt) (.set []) (u8 "[]") && writes (.set tInt) (.set [vi 1, vi 2, vi 3]) (u8 "[1,2,3]") &&
    writes (.set tFloat) (.set [vf .float "1.5", vf .float "2.5", vf .float "3.5"]) (u8 "[1.5,2.5,3.5]") &&
    writes (.set tString) (.set [vs "one", vs "two"]) (u8 "[\"one\",\"two\"]") &&
    writes (.set (.cls 1)) (.set [val "a", val "b", val "c"]) (u8 "[{\"value\":\"a\"},{\"value\":\"b\"},{\"value\":\"c\"}]") &&
    writes (.set (.cls 0)) (.set [val "a", val "b", val "c"]) (u8 "[{\"value\":\"a\"},{\"value\":\"b\"},{\"value\":\"c\"}]")) = true := by
  decide +kernel

/-- Serialization, Map and UnorderedMap. -/
example : ([true, false].all fun o =>
    writes (.map o tInt) (.map []) (u8 "{}") && writes (.map o tInt) (.map [(lit "key", vi 1)]) (u8 "{\"key\":1}") &&
    writes (.map o tInt) (.map [(lit "key1", vi 1), (lit "key2", vi 2), (lit "key3", vi 3)]) (u8 "{\"key1\":1,\"key2\":2,\"key3\":3}") &&
    writes (.map o tString) (.map [(lit "key1", vs "a"), (lit "key2", vs "b"), (lit "key3", vs "c")])
      (u8 "{\"key1\":\"a\",\"key2\":\"b\",\"key3\":\"c\"}") &&
    writes (.map o (.vec tInt)) (.map [(lit "key1", .seq [vi 1, vi 2]), (lit "key2", .seq [vi 4, vi 8, vi 16, vi 32])])
      (u8 "{\"key1\":[1,2],\"key2\":[4,8,16,32]}") &&
    writes (.map o (.cls 0)) (.map [(lit "key1", val "a"), (lit "key2", val "b"), (lit "key3", val "c")])
      (u8 "{\"key1\":{\"value\":\"a\"},\"key2\":{\"value\":\"b\"},\"key3\":{\"value\":\"c\"}}")) = true := by decide +kernel

/-- Serialization, DateTimeTypes (test/serialize_datetime.cpp). -/
example : (writes tTime (moment 1982 10 23 1 20 40) (q "1982-10-23T01:20:40Z") && writes tTime (moment 2022 2 1 23 2 1) (q "2022-02-01T23:02:01Z") &&
    writes tDate (.prim (.date 1982 10 23)) (q "1982-10-23") && writes tDate (.prim (.date 2022 2 1)) (q "2022-02-01")) = true := by decide +kernel

/-- Serialization, EnumTypes (test/serialize_enum.cpp). -/
example : (writes side (vi 1) (u8 "1") && writes side (vi 2) (u8 "2") && writes suit (vi 0) (u8 "0") && writes suit (vi 1) (u8 "1") &&
    writes suit (vi 2) (u8 "2") && writes suit (vi 3) (u8 "3") && writes esper (vi 0) (q "Unu") && writes esper (vi 1) (q "Du") &&
    writes esper (vi 4) (q "Kvin") && writes esper (vi 9) (q "Dek")) = true := by decide +kernel

/-- Serialization, SpecialTypes and BooleanTypes (test/serialize_fundamental.cpp). -/
example : (writes (.prim .null) (.prim .null) (u8 "null") && writes (.prim .bool) (.prim (.bool true)) (u8 "true") &&
    writes (.prim .bool) (.prim (.bool false)) (u8 "false")) = true := by decide +kernel

/-- `test_serialize_integer_type<T>()`. -/
def writesInteger (t : IntTy) : Bool :=
  let T : Ty := .prim (.int t)
  writes T (vi 0) (lit "0") && writes T (vi 1) (lit "1") && writes T (vi t.min) (decimalInt t.min) && writes T (vi t.max) (decimalInt t.max)

/-- `test_serialize_float_type<T>()`. -/
def writesFloat (t : FltTy) : Bool := ["0.0", "1.0", "-1.0", "4.5"].all fun s => writes (.prim (.flt t)) (vf t s) (u8 s)

/-- Serialization, NumericTypes. -/
example : ([Width.w8, .w16, .w32, .w64].all fun w => writesInteger ⟨w, true⟩ && writesInteger ⟨w, false⟩) = true := by decide +kernel

example : (writesFloat .float && writesFloat .double) = true := by decide +kernel

/-- Serialization, Pointer (test/serialize_object.cpp). -/
example : (writes (.uptr tInt) (.uptr (vi 23)) (u8 "23") && writes (.sptr tInt) (.sptr 0 (vi 23)) (u8 "23") &&
    writes (.uptr tString) (.uptr (vs "string")) (q "string") && writes (.sptr tString) (.sptr 0 (vs "string")) (q "string") &&
    writes (.uptr (.cls 0)) (.uptr (val "string")) (u8 "{\"value\":\"string\"}") &&
    writes (.sptr (.cls 0)) (.sptr 0 (val "string")) (u8 "{\"value\":\"string\"}")) = true := by decide +kernel

/-- Serialization, Object. -/
example : (writes (.cls 0) (val "test string") (u8 "{\"value\":\"test string\"}") && writes (.cls 1) (val "default") (u8 "{\"value\":\"default\"}") &&
    writes (.cls 2) (.obj [vs "base", vs "derived"]) (u8 "{\"value\":\"base\",\"member\":\"derived\"}") &&
    writes (.cls 6) dto dtoText) = true := by decide +kernel

/-- Serialization, Optional. -/
example : (writes (.cls 7) (.obj [.absent]) (u8 "{}") && writes (.cls 7) (.obj [.present (vi 42)]) (u8 "{\"optional_value\":42}")) = true := by
  decide +kernel

/-- Serialization, BackReferenceArray. -/
example : writes (.cls 8) (.obj [.seq [.sptr 1 (val "one"), .sptr 2 (val "two"), .sptr 2 (val "two"), .sptr 2 (val "two")]])
    (u8 "{\"values\":[{\"value\":\"one\"},{\"value\":\"two\"},{\"$ref\":\"/values/1\"},{\"$ref\":\"/values/1\"}]}") = true := by decide +kernel

/-- Serialization, BackReferenceObject. -/
example : writes (.cls 9) (.obj [.sptr 1 (val "string"), .seq [.sptr 1 (val "string"), .sptr 1 (val "string")]])
    (u8 "{\"outer\":{\"value\":\"string\"},\"inner\":[{\"$ref\":\"/outer\"},{\"$ref\":\"/outer\"}]}") = true := by decide +kernel

/-- Serialization, StringTypes (test/serialize_string.cpp). -/
example : (writes tString (vs "") (q "") && writes tString (vs "test string") (q "test string") &&
    writes tString (vs "test\x00string") (q "test\\u0000string") && writes tString (vs "árvíztűrő tükörfúrógép") (q "árvíztűrő tükörfúrógép")) =
    true := by decide +kernel

/-- Serialization, Array, Pair and Tuple (test/serialize_tuple.cpp). -/
example : (writes (.arr 0 tInt) (.tup []) (u8 "[]") && writes (.arr 3 tInt) (.tup [vi 1, vi 2, vi 3]) (u8 "[1,2,3]") &&
    writes (.arr 3 (.cls 0)) (.tup [val "a", val "b", val "c"]) (u8 "[{\"value\":\"a\"},{\"value\":\"b\"},{\"value\":\"c\"}]") &&
    writes (.arr 2 tString) (.tup [vs "one", vs "two"]) (u8 "[\"one\",\"two\"]") &&
    writes (.tuple [tInt, tString]) (.tup [vi 19, vs "eighty-two"]) (u8 "[19,\"eighty-two\"]") && writes (.tuple []) (.tup []) (u8 "[]") &&
    writes (.tuple [tString]) (.tup [vs "value"]) (u8 "[\"value\"]") &&
    writes (.tuple [tInt, .cls 0]) (.tup [vi 23, val "string"]) (u8 "[23,{\"value\":\"string\"}]")) = true := by decide +kernel

/-- Serialization, Variant (test/serialize_variant.cpp). -/
example : (writes (.variant [tInt, tString]) (.alt 1 (vs "value")) (q "value") && writes (.variant [tInt, tString]) (.alt 0 (vi 23)) (u8 "23") &&
    writes (.variant [tString, .cls 0]) (.alt 0 (vs "value")) (q "value") &&
    writes (.variant [tString, .cls 0]) (.alt 1 (val "string")) (u8 "{\"value\":\"string\"}") &&
    writes (.variant [.cls 0, .cls 3]) (.alt 0 (val "string")) (u8 "{\"value\":\"string\"}") &&
    writes (.variant [.cls 0, .cls 3]) (.alt 1 (.obj [val "string"])) (u8 "{\"member\":{\"value\":\"string\"}}")) = true := by decide +kernel

end Verif.Conformance
