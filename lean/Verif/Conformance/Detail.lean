import Verif.Conformance.Read

/-!
# The tests of the utilities and of schemas, run on the model (test/detail.cpp, test/schema.cpp, test/main.cpp)
-/

namespace Verif.Conformance
open Verif.Core Verif.Numeric Verif.Text Verif.EnumConv

/-! ## Numbers -/

/-- `std::numeric_limits<T>::max()` of a floating-point type. -/
def largest (t : FltTy) (neg : Bool) : Flt := norm neg (2 ^ t.digits - 1) t.emax

/-- Utility, NumericTraits: integers (test/detail.cpp). -/
example :
    let i (T V : IntTy) := (isAssignableIntInt T V V.min, isAssignableIntInt T V V.max)
    [i u32 u32, i u64 u32, i u32 u64, i i32 i32, i i64 i32, i i32 i64, i u32 i32, i u64 i32, i u32 i64, i i32 u32, i i64 u32, i i32 u64] =
    [(true, true), (true, true), (true, false), (true, true), (true, true), (false, false), (false, true), (false, true), (false, false),
      (true, false), (true, true), (true, false)] := by decide +kernel

/-- Utility, NumericTraits: floating-point numbers from integers. -/
example :
    let i (T : FltTy) (V : IntTy) := (isAssignableFltInt T V V.min, isAssignableFltInt T V V.max)
    [i .float ⟨.w16, true⟩, i .float ⟨.w16, false⟩, i .float i32, i .float u32, i .double i32, i .double u32, i .double i64, i .double u64] =
    [(true, true), (true, true), (false, false), (true, false), (true, true), (true, true), (false, false), (true, false)] := by decide +kernel

/-- Utility, NumericTraits: floating-point numbers from floating-point numbers. -/
example :
    let i (T V : FltTy) := (isAssignableFltFlt T V (largest V true), isAssignableFltFlt T V (largest V false))
    [i .float .float, i .float .double, i .double .float, i .double .double] = [(true, true), (false, false), (true, true), (true, true)] := by
  decide +kernel

/-! ## The stack -/

/-- Objects of `DerivedClassA` with the given letter, and an object of `DerivedClassB`. -/
def classA (c : Nat) : PolyStack.Obj := ⟨c, 16, 8⟩
/-- See `classA`. -/
def classB : PolyStack.Obj := ⟨0, 24, 8⟩

/-- What `back().process()` shows after each operation, and the destructor calls up to then. -/
def shown : List PolyStack.Op → PolyStack.State → List (Option Nat × List (Option Nat))
  | [], s => [(none, (PolyStack.destroy s).log.map (·.map (·.id)))]
  | op :: ops, s =>
      let s' := (PolyStack.step 128 4096 s op).1
      ((PolyStack.back s').map (·.id), s'.log.map (·.map (·.id))) :: shown ops s'

/-- Utility, PolymorphicStack: "A a, A b, B, ~B, A b, A c, ~A, ~A, ~A, ". -/
example : shown [.emplace (classA 97), .emplace (classA 98), .emplace classB, .pop, .emplace (classA 99)] (PolyStack.init 128) =
    [(some 97, []), (some 98, []), (some 0, []), (some 98, [some 0]), (some 99, [some 0]), (none, [some 0, some 99, some 98, some 97])] := by
  decide +kernel

/-! ## Base64 -/

/-- `test_base64(str, ref)` (test/detail.cpp), for both byte orders. -/
def base64 (s r : String) : Bool :=
  decide (Base64.encode .little (fun _ => 255) (lit s) = lit r) && decide (Base64.encode .big (fun _ => 255) (lit s) = lit r) &&
  decide (Base64.decode (lit r) = some (lit s))

/-- Utility, Base64. -/
example : ([("", ""), ("f", "Zg=="), ("fo", "Zm8="), ("foo", "Zm9v"), ("foob", "Zm9vYg=="), ("fooba", "Zm9vYmE="), ("foobar", "Zm9vYmFy"),
    ("Hello World", "SGVsbG8gV29ybGQ="),
    ("The quick brown fox jumped over the lazy dogs.", "VGhlIHF1aWNrIGJyb3duIGZveCBqdW1wZWQgb3ZlciB0aGUgbGF6eSBkb2dzLg==")].all
    fun x => base64 x.1 x.2) = true := by decide +kernel

example : (["A", "AA", "AAA", "A===", "===A", "==AA", "=AAA", "AAA.", ".AAA", "OOOO==AA", "OOOO=AAA", "OOOOAAA.", "OOOO.AAA"].all
    fun s => decide (Base64.decode (lit s) = none)) = true := by decide +kernel

/-! ## Perfect hash -/

/-- The places of the items in the table made for them. -/
def places (items : List String) : List (Option Nat) :=
  let names := items.map lit
  match PerfectHash.build true names 1000 with
  | .ok t => names.map (PerfectHash.index true t names.length)
  | _ => []

/-- Utility, PerfectHash. -/
example : places ["a"] = [some 0] ∧ places ["a", "b", "c"] = [some 0, some 1, some 2] ∧
    places ["a", "creamwove", "quists"] = [some 0, some 1, some 2] := by decide +kernel

/-- The words of the last test collide under the 32-bit FNV-1 hash; the 64-bit hash of the model tells them apart. -/
example : PerfectHash.hash true 0 (lit "creamwove") ≠ PerfectHash.hash true 0 (lit "quists") := by decide +kernel

/-- Utility, Members: the members in their order. -/
example : (env.members 11).map (·.name) = [lit "bool_value", lit "string_value", lit "string_list", lit "optional_value", lit "custom_value"] ∧
    (env.members 4).map (·.name) = [lit "first", lit "second"] := by decide +kernel

/-! ## Schemas -/

/-- `schema_to_string<T>()` and, with a version, `schema_document_to_string<T>()` (schema_utility.hpp). -/
def schemaText (t : Ty) (version : Option Str := none) : Str :=
  match buildSchema env 100 t with
  | some (s, defs) => documentToString conv (schemaDoc version defs s)
  | none => []

/-- The schema of an integer type. -/
def rangeText (t : IntTy) : Str := lit "{\"type\":\"integer\",\"minimum\":" ++ decimalInt t.min ++ lit ",\"maximum\":" ++ decimalInt t.max ++ lit "}"

/-- Schema, Schema: types without components (test/schema.cpp). -/
example : ([(Ty.prim .null, "{\"type\":\"null\"}"), (.prim .bool, "{\"type\":\"boolean\"}"), (tFloat, "{\"type\":\"number\"}"), (tDouble, "{\"type\":\"number\"}"),
    (tString, "{\"type\":\"string\"}"), (tTime, "{\"type\":\"string\",\"format\":\"date-time\"}"), (tDate, "{\"type\":\"string\",\"format\":\"date\"}")].all
    fun x => decide (schemaText x.1 = lit x.2)) = true := by decide +kernel

example : ([Width.w16, .w32, .w64].all fun w => decide (schemaText (int w) = rangeText ⟨w, true⟩) && decide (schemaText (uint w) = rangeText ⟨w, false⟩)) =
    true := by decide +kernel

/-- Schema, Schema: arrays, pairs, tuples, variants, containers. -/
example : ([(Ty.arr 23 tString, lit "{\"type\":\"array\",\"items\":{\"type\":\"string\"},\"minItems\":23,\"maxItems\":23}"),
    (.tuple [tInt, tString], lit "{\"type\":\"array\",\"prefixItems\":[" ++ schemaText tInt ++ lit "," ++ schemaText tString ++ lit "],\"minItems\":2,\"maxItems\":2}"),
    (.tuple [tInt, tDouble, tString], lit "{\"type\":\"array\",\"prefixItems\":[" ++ schemaText tInt ++ lit "," ++ schemaText tDouble ++ lit "," ++
      schemaText tString ++ lit "],\"minItems\":3,\"maxItems\":3}"),
    (.variant [tInt, tDouble, tString], lit "{\"oneOf\":[" ++ schemaText tInt ++ lit "," ++ schemaText tDouble ++ lit "," ++ schemaText tString ++ lit "]}"),
    (.vec tString, lit "{\"type\":\"array\",\"items\":{\"type\":\"string\"}}"),
    (.set tString, lit "{\"type\":\"array\",\"items\":{\"type\":\"string\"},\"uniqueItems\":true}"),
    (.map true tDouble, lit "{\"type\":\"object\",\"additionalProperties\":{\"type\":\"number\"}}"),
    (.map false tDouble, lit "{\"type\":\"object\",\"additionalProperties\":{\"type\":\"number\"}}")].all fun x => decide (schemaText x.1 = x.2)) = true := by
  decide +kernel

/-- Schema, Schema: classes (the name of the type is the name of the class here). -/
example : ([(Ty.cls 0, lit "{\"type\":\"object\",\"properties\":{\"value\":{\"type\":\"string\"}},\"required\":[\"value\"],\"additionalProperties\":false}"),
    (.cls 7, lit "{\"type\":\"object\",\"properties\":{\"optional_value\":" ++ schemaText tInt ++ lit "},\"required\":[],\"additionalProperties\":false}"),
    (.cls 2, lit "{\"type\":\"object\",\"properties\":{\"value\":{\"type\":\"string\"},\"member\":{\"type\":\"string\"}},\"required\":[\"value\",\"member\"],\"additionalProperties\":false}"),
    (.vec (.cls 0), lit "{\"definitions\":{\"TestValue\":" ++ schemaText (.cls 0) ++ lit "},\"type\":\"array\",\"items\":{\"$ref\":\"#/definitions/TestValue\"}}"),
    (.uptr (.cls 0), schemaText (.cls 0)), (.sptr (.cls 0), schemaText (.cls 0))].all fun x => decide (schemaText x.1 = x.2)) = true := by decide +kernel

/-- Schema, Schema: documents. -/
example :
    let version := some (lit "https://json-schema.org/draft/2020-12/schema")
    (schemaText (.prim .bool) version = lit "{\"$schema\":\"https://json-schema.org/draft/2020-12/schema\",\"type\":\"boolean\"}") ∧
    schemaText (.cls 0) version = lit ("{\"$schema\":\"https://json-schema.org/draft/2020-12/schema\",\"type\":\"object\",\"properties\":{\"value\":{\"type\":" ++
      "\"string\"}},\"required\":[\"value\"],\"additionalProperties\":false}") := by decide +kernel

/-! ## The example of the documentation -/

/-- Documentation, Example (test/main.cpp). -/
example : (writes (.cls 12) (defaultVal (.cls 12)) (u8 "{\"base_member\":\"base\",\"derived_member\":\"derived\"}") &&
    (let v : Val := .obj [.prim (.bool true), vs "string", .seq [vs "a", vs "b", vs "c"], .absent, .obj [vs "xyz"]]
    match writeText conv env (.cls 11) v [] with
    | some (true, w) => reads (.cls 11) w v
    | _ => false)) = true := by decide +kernel

end Verif.Conformance
