import Verif.Write

/-!
# Generating schemas

schema.hpp and schema_utility.hpp: the schema of a type is built as a value of one of eight classes
(`JsonSchemaType`) and then written with `write_to_string`.
-/

namespace Verif.Core
open Verif.Numeric Verif.EnumConv

/-! ## Schemas as C++ objects -/

/-- The values of `JsonSchemaType` (schema.hpp:22-31) that the generator makes, one constructor for each way in
which it fills in the members.
* `ref`: `JsonSchemaReferenceType` (33-49);
* `fundamental`: `JsonSchemaFundamentalType` (72-108);
* `signed`, `unsigned`: `JsonSchemaSignedIntegerType`, `JsonSchemaUnsignedIntegerType` (110-151; the latter has `minimum = 0`);
* `enumeration`: `JsonSchemaEnumType` (153-174); `enum_values` is never assigned, so it is an empty
  `std::vector<long long>`;
* `items`: `JsonSchemaArrayType` (176-197) with `items`, and either `uniqueItems` or `minItems` and `maxItems`, or none of them;
* `tuple`: `JsonSchemaArrayType` with `prefixItems`, `minItems` and `maxItems`;
* `object`: `JsonSchemaObjectType` (202-219) with `properties`, `required` and `additionalProperties = false`;
* `mapping`: `JsonSchemaObjectType` with a schema as `additionalProperties`;
* `oneOf`: `JsonSchemaOneOfType` (221-232). -/
inductive Schema
  | ref (target : Str)
  | fundamental (type : Str) (format encoding : Option Str)
  | signed (minimum maximum : Int)
  | unsigned (maximum : Int)
  | enumeration (type : Str)
  | items (item : Schema) (unique : Bool) (size : Option Nat)
  | tuple (parts : List Schema)
  | object (properties : List (Str × Schema)) (required : List Str)
  | mapping (value : Schema)
  | oneOf (alternatives : List Schema)
deriving Repr

/-- `JsonSchemaDefinitions` (schema.hpp:234): a map from type names to schemas, in ascending order of the names. -/
abbrev Defs := List (Str × Schema)

/-- `definitions.insert(...)` (schema.hpp:394-399): keeps an existing entry. -/
def Defs.insert (name : Str) (s : Schema) (defs : Defs) : Defs :=
  match defs.lookup name with
  | some _ => defs
  | none => mapAssign name s defs

/-- The schemas of types without components (schema.hpp:241-341). An enumeration is no integral type
(`std::is_integral_v`, 335), so one without names gets the type "object". -/
def primSchema : Prim → Schema
  | .null => .fundamental (lit "null") none none
  | .bool => .fundamental (lit "boolean") none none
  | .int t => if t.signed then .signed t.min t.max else .unsigned t.max
  | .flt _ => .fundamental (lit "number") none none
  | .str => .fundamental (lit "string") none none
  | .bytes => .fundamental (lit "string") none (some (lit "base64"))
  | .time => .fundamental (lit "string") (some (lit "date-time")) none
  | .date => .fundamental (lit "string") (some (lit "date")) none
  | .enumInt _ => .enumeration (lit "object")
  | .enumStr _ => .enumeration (lit "string")

/-- A step of the generator: `none` when it does not return. -/
abbrev Gen (α : Type) := Option (α × Defs)

/-- The reference to a definition (schema.hpp:402-404). -/
def defRef (name : Str) : Str := lit "#/definitions/" ++ name

/-- `make_schema<T>` (schema.hpp:389-410): for a class, the schema is made and then stored under the name of the
class, and a reference is returned; `gen` is `JsonSchema<T>::type`. -/
def makeWith (env : Env) (gen : Ty → Defs → Gen Schema) (t : Ty) (defs : Defs) : Gen Schema :=
  match t with
  | .cls c => (gen (.cls c) defs).map fun (s, defs') => (.ref (defRef (env.classes c).name), defs'.insert (env.classes c).name s)
  | t => gen t defs

/-- `(items.push_back(make_schema_ptr<T>(context)), ...)` (schema.hpp:514, 535). -/
def makesWith (make : Ty → Defs → Gen Schema) : List Ty → Defs → Gen (List Schema)
  | [], defs => some ([], defs)
  | t :: ts, defs => (make t defs).bind fun (s, defs') => (makesWith make ts defs').map fun (ss, defs'') => (s :: ss, defs'')

/-- The visitor of a class (`JsonSchemaVisitor`, schema.hpp:418-451): a property for each member variable, in the
order of `persist`; the names of those that are not optional are required. There is no overload for
`MEMBER_VARIABLE_DEFAULT`, classes with such members do not compile; here they are treated as required. -/
def visitWith (make : Ty → Defs → Gen Schema) : List Member → Defs → Gen (List (Str × Schema) × List Str)
  | [], defs => some (([], []), defs)
  | m :: ms, defs =>
      (make m.ty defs).bind fun (s, defs') =>
        (visitWith make ms defs').map fun ((ps, rs), defs'') =>
          (((m.name, s) :: ps, if m.kind = .optional then rs else m.name :: rs), defs'')

/-- `JsonSchema<T>::type` (schema.hpp:241-581), with at most `fuel` nested calls: types without components; classes (453-466);
pointers, which are replaced by what they point to (474-490, which compiles only for types with components);
arrays (492-503), pairs and tuples (505-526), variants (528-539), vectors (541-550), sets (552-562), maps (564-581). A
vector of pairs is a vector of pairs here. -/
def gen (env : Env) : Nat → Ty → Defs → Gen Schema
  | 0, _, _ => none
  | fuel + 1, t, defs =>
      let make := makeWith env (gen env fuel)
      match t with
      | .prim p => some (primSchema p, defs)
      | .vec t => (make t defs).map fun (s, defs') => (.items s false none, defs')
      | .arr n t => (make t defs).map fun (s, defs') => (.items s false (some n), defs')
      | .set t => (make t defs).map fun (s, defs') => (.items s true none, defs')
      | .map _ t => (make t defs).map fun (s, defs') => (.mapping s, defs')
      | .dict t => (make (.tuple [.prim .str, t]) defs).map fun (s, defs') => (.items s false none, defs')
      | .tuple ts => (makesWith make ts defs).map fun (ss, defs') => (.tuple ss, defs')
      | .variant ts => (makesWith make ts defs).map fun (ss, defs') => (.oneOf ss, defs')
      | .cls c => (visitWith make (env.members c) defs).map fun ((ps, rs), defs') => (.object ps rs, defs')
      | .uptr t => gen env fuel t defs
      | .sptr t => gen env fuel t defs

/-- `schema<T>()` (schema.hpp:628-657): the schema and the definitions, which are left out when there are none. -/
def buildSchema (env : Env) (fuel : Nat) (t : Ty) : Gen Schema := gen env fuel t []

/-- Member or nothing. -/
def optField (k : Str) : Option Json → List (Str × Json)
  | some j => [(k, j)]
  | none => []

mutual
/-- The members of the object that is written for a schema: the `persist` functions of schema.hpp:42-48, 99-107,
121-129, 143-150, 166-173, 188-196, 211-218, 226-231. -/
def Schema.fields : Schema → List (Str × Json)
  | .ref r => [(lit "$ref", .str r)]
  | .fundamental type format enc => (lit "type", .str type) :: (optField (lit "format") (format.map .str) ++ optField (lit "contentEncoding") (enc.map .str))
  | .signed lo hi => [(lit "type", .str (lit "integer")), (lit "minimum", .num (.int lo)), (lit "maximum", .num (.int hi))]
  | .unsigned hi => [(lit "type", .str (lit "integer")), (lit "minimum", .num (.int 0)), (lit "maximum", .num (.int hi))]
  | .enumeration type => [(lit "type", .str type), (lit "enum", .arr [])]
  | .items s unique size => (lit "type", .str (lit "array")) :: (lit "items", .obj s.fields) :: ((if unique then [(lit "uniqueItems", .bool true)] else []) ++
      optField (lit "minItems") (size.map fun n => .num (.int n)) ++ optField (lit "maxItems") (size.map fun n => .num (.int n)))
  | .tuple ss => [(lit "type", .str (lit "array")), (lit "prefixItems", .arr (Schema.jsons ss)), (lit "minItems", .num (.int ss.length)),
      (lit "maxItems", .num (.int ss.length))]
  | .object ps rs => [(lit "type", .str (lit "object")), (lit "properties", .obj (Schema.entries ps)), (lit "required", .arr (rs.map .str)),
      (lit "additionalProperties", .bool false)]
  | .mapping s => [(lit "type", .str (lit "object")), (lit "additionalProperties", .obj s.fields)]
  | .oneOf ss => [(lit "oneOf", .arr (Schema.jsons ss))]

/-- The documents for a list of schemas. -/
def Schema.jsons : List Schema → List Json
  | [] => []
  | s :: ss => .obj s.fields :: Schema.jsons ss

/-- The documents for the properties of a class. -/
def Schema.entries : List (Str × Schema) → List (Str × Json)
  | [] => []
  | (k, s) :: ps => (k, .obj s.fields) :: Schema.entries ps
end

/-- The document for a schema. -/
def Schema.json (s : Schema) : Json := .obj s.fields

/-- The document for `JsonSchemaDocument` (schema.hpp:583-618, 659-665): `$schema`, `definitions`, and the members of the schema. -/
def schemaDoc (version : Option Str) (defs : Defs) (s : Schema) : Json :=
  .obj (optField (lit "$schema") (version.map .str) ++
    optField (lit "definitions") (if defs = [] then none else some (.obj (Schema.entries defs))) ++ s.fields)

end Verif.Core
