import Verif.Serialize

/-!
# Which specialisation is chosen

The other modules start from `Ty`, one constructor for each specialisation of `JsonSerializer`, `JsonWriter`, `JsonDeserializer`, `JsonParser` and
`JsonSchema`. Here are the C++ types before a specialisation is chosen (`CTy`), the specialisations that each operation has, by header (`home`), and
the choice among those in the headers that were included (`resolve`). A type for which there is no specialisation is a compile-time error
(`static_assert` in the primary templates: serialize_base.hpp:12-18, write_base.hpp, deserialize_base.hpp, parse_base.hpp:156-162).

Simplifications: all headers are included before the first use (otherwise the program is ill-formed); `char` has the properties of
`signed char` or `unsigned char`, whichever the table says; an `optional` that the parser supports outside of classes (parse_object.hpp:78-84, the same code as
parse_pointer.hpp:14-26) is resolved to `uptr`; the components of a class are in the table of classes.
-/

namespace Verif.Dispatch
open Verif.Core Verif.Numeric Verif.EnumConv

/-- C++ types. `otherInt` are `wchar_t`, `char8_t`, `char16_t`, `char32_t`; `byte` is `std::byte`; `map ordered view t` is `std::map` or `std::unordered_map`
with keys that are `std::string` or `std::string_view` (dictionary.hpp:9-26). -/
inductive CTy
  | null
  | bool
  | int (t : IntTy)
  | otherInt (t : IntTy)
  | flt (t : FltTy)
  | longDouble
  | str
  | view
  | chars (n : Nat)
  | byte
  | enumInt (t : IntTy)
  | enumStr (table : Table)
  | time
  | date
  | vec (t : CTy)
  | arr (n : Nat) (t : CTy)
  | set (t : CTy)
  | map (ordered : Bool) (view : Bool) (t : CTy)
  | pair (s t : CTy)
  | tuple (ts : List CTy)
  | variant (ts : List CTy)
  | optional (t : CTy)
  | cls (c : Nat)
  | raw (t : CTy)
  | uptr (t : CTy)
  | sptr (t : CTy)

/-- The five templates: `JsonSerializer`, `JsonWriter`, `JsonDeserializer`, `JsonParser`, `JsonSchema`. -/
inductive Op
  | serialize
  | write
  | deserialize
  | parse
  | schema
deriving DecidableEq

/-- The suffixes of the headers `serialize_*.hpp`, `write_*.hpp`, `deserialize_*.hpp`, `parse_*.hpp`. `all`: the header schema.hpp, which has everything. -/
inductive Header
  | all
  | fundamental
  | string
  | bytes
  | datetime
  | date
  | enum
  | vector
  | array
  | set
  | map
  | tuple
  | variant
  | object
  | pointer
deriving DecidableEq

/-- What a specialisation is for. -/
inductive Form
  | null
  | bool
  | int
  | otherInt
  | flt
  | longDouble
  | str
  | view
  | chars
  | bytes
  | enum
  | time
  | date
  | vec
  | dict
  | arr
  | set
  | map
  | viewMap
  | pair
  | tuple
  | variant
  | optional
  | cls
  | raw
  | ptr
deriving DecidableEq

/-- The header in which an operation has its specialisation for a form; `none`: there is none, or it is a `static_assert`.

* `serialize`: serialize_fundamental.hpp:8-143, serialize_string.hpp:9-32, serialize_bytes.hpp:10, serialize_enum.hpp:49, serialize_datetime.hpp:8, serialize_date.hpp:11,
  serialize_vector.hpp:9, serialize_map.hpp:34-68, serialize_array.hpp:9, serialize_set.hpp:9, serialize_tuple.hpp:47-57, serialize_variant.hpp:8,
  serialize_object.hpp:101, serialize_pointer.hpp:21-33
* `write`: the same in write_*.hpp
* `deserialize`: deserialize_fundamental.hpp:161-309, deserialize_string.hpp:9, deserialize_bytes.hpp:10, deserialize_enum.hpp:93, deserialize_datetime.hpp:10, deserialize_date.hpp:13,
  deserialize_vector.hpp:10, deserialize_map.hpp:36-47, deserialize_array.hpp:10, deserialize_set.hpp:10, deserialize_tuple.hpp:45-56, deserialize_variant.hpp:11,
  deserialize_object.hpp:121, deserialize_pointer.hpp:10-33 (raw pointers: `static_assert`)
* `parse`: parse_fundamental.hpp:9-219, parse_string.hpp:7, parse_bytes.hpp:7, parse_enum.hpp:134, parse_datetime.hpp:8, parse_date.hpp:11, parse_vector.hpp:224,
  parse_map.hpp:56-66, parse_array.hpp:139-161 (also pairs and tuples), parse_set.hpp:233, parse_object.hpp:78 (`std::optional`) and 224,
  parse_pointer.hpp:7-28 (raw pointers: `static_assert`)
* `schema`: schema.hpp:245-583 (raw pointers: `static_assert`; `is_integral` and `is_floating_point` in 264-282 have more types than the other operations) -/
def home : Op → Form → Option Header
  | .schema, .view => none
  | .schema, .chars => none
  | .schema, .dict => none
  | .schema, .viewMap => none
  | .schema, .optional => none
  | .schema, .raw => none
  | .schema, _ => some .all
  | _, .otherInt => none
  | _, .longDouble => none
  | _, .null => some .fundamental
  | _, .bool => some .fundamental
  | _, .int => some .fundamental
  | _, .flt => some .fundamental
  | _, .str => some .string
  | .serialize, .view => some .string
  | .write, .view => some .string
  | _, .view => none
  | .serialize, .chars => some .string
  | .write, .chars => some .string
  | _, .chars => none
  | _, .bytes => some .bytes
  | _, .enum => some .enum
  | _, .time => some .datetime
  | _, .date => some .date
  | _, .vec => some .vector
  | .serialize, .dict => some .map
  | .write, .dict => some .map
  | _, .dict => none
  | _, .arr => some .array
  | _, .set => some .set
  | _, .map => some .map
  | .serialize, .viewMap => some .map
  | .write, .viewMap => some .map
  | _, .viewMap => none
  | .parse, .pair => some .array
  | _, .pair => some .tuple
  | .parse, .tuple => some .array
  | _, .tuple => some .tuple
  | .parse, .variant => none
  | _, .variant => some .variant
  | .parse, .optional => some .object
  | _, .optional => none
  | _, .cls => some .object
  | .serialize, .raw => some .pointer
  | .write, .raw => some .pointer
  | _, .raw => none
  | _, .ptr => some .pointer

/-- There is a specialisation in one of the headers that are included. -/
def offers (op : Op) (inc : Header → Bool) (f : Form) : Bool :=
  match home op f with
  | none => false
  | some h => inc h

/-- `x` if the specialisation is there. -/
def pick (op : Op) (inc : Header → Bool) (f : Form) (x : Option Ty) : Option Ty :=
  if offers op inc f then x else none

/-- schema.hpp:363-374 `is_context_aware_schema`: the types for which `JsonSchema<T>::type` takes a context. -/
def aware : CTy → Bool
  | .vec .byte => false
  | .vec _ | .arr _ _ | .set _ | .map _ _ _ | .pair _ _ | .tuple _ | .variant _ | .cls _ | .uptr _ | .sptr _ => true
  | _ => false

/-- schema.hpp:474-490: the schema of a smart pointer is made with `JsonSchema<T>::type(context)`, which does not compile for types whose schema takes no context. -/
def pointee (op : Op) (t : CTy) : Bool := op != .schema || aware t

mutual
/-- The specialisation that is chosen. For `std::vector<std::byte>` the full specialisation for `byte_vector` is more specialised than the one for vectors;
without it `std::byte` is an enumeration. For vectors of pairs with a string as first component the specialisations for dictionaries are more specialised
than the one for vectors (dictionary.hpp:9-10, 18-19). -/
def resolve (op : Op) (inc : Header → Bool) : CTy → Option Ty
  | .null => pick op inc .null (some (.prim .null))
  | .bool => pick op inc .bool (some (.prim .bool))
  | .int t => pick op inc .int (some (.prim (.int t)))
  | .otherInt t => pick op inc .otherInt (some (.prim (.int t)))
  | .flt t => pick op inc .flt (some (.prim (.flt t)))
  | .longDouble => pick op inc .longDouble (some (.prim (.flt .double)))
  | .str => pick op inc .str (some (.prim .str))
  | .view => pick op inc .view (some (.prim .str))
  | .chars _ => pick op inc .chars (some (.prim .str))
  | .byte => pick op inc .enum (some (.prim (.enumInt ⟨.w8, false⟩)))
  | .enumInt t => pick op inc .enum (some (.prim (.enumInt t)))
  | .enumStr tab => pick op inc .enum (some (.prim (.enumStr tab)))
  | .time => pick op inc .time (some (.prim .time))
  | .date => pick op inc .date (some (.prim .date))
  | .vec .byte =>
      if offers op inc .bytes then some (.prim .bytes)
      else pick op inc .vec (.vec <$> resolve op inc .byte)
  | .vec (.pair .str t) =>
      if offers op inc .dict then .dict <$> resolve op inc t
      else pick op inc .vec (.vec <$> resolve op inc (.pair .str t))
  | .vec (.pair .view t) =>
      if offers op inc .dict then .dict <$> resolve op inc t
      else pick op inc .vec (.vec <$> resolve op inc (.pair .view t))
  | .vec t => pick op inc .vec (.vec <$> resolve op inc t)
  | .arr n t => pick op inc .arr (.arr n <$> resolve op inc t)
  | .set t => pick op inc .set (.set <$> resolve op inc t)
  | .map o false t => pick op inc .map (.map o <$> resolve op inc t)
  | .map o true t => pick op inc .viewMap (.map o <$> resolve op inc t)
  | .pair s t => pick op inc .pair ((resolve op inc s).bind fun s' => (resolve op inc t).map fun t' => .tuple [s', t'])
  | .tuple ts => pick op inc .tuple (.tuple <$> resolveAll op inc ts)
  | .variant ts => pick op inc .variant (.variant <$> resolveAll op inc ts)
  | .optional t => pick op inc .optional (.uptr <$> resolve op inc t)
  | .cls c => pick op inc .cls (some (.cls c))
  | .raw t => pick op inc .raw (.uptr <$> resolve op inc t)
  | .uptr t => if pointee op t then pick op inc .ptr (.uptr <$> resolve op inc t) else none
  | .sptr t => if pointee op t then pick op inc .ptr (.sptr <$> resolve op inc t) else none

/-- The components of a tuple or a variant. -/
def resolveAll (op : Op) (inc : Header → Bool) : List CTy → Option (List Ty)
  | [] => some []
  | t :: ts => (resolve op inc t).bind fun t' => (resolveAll op inc ts).map fun ts' => t' :: ts'
end

/-! ## The members of classes -/

/-- A member variable before the choice of specialisations; a member that is `std::optional<T>` has the type `T` and the kind `optional`. -/
structure CMember where
  name : Str
  kind : Kind
  ty : CTy

/-- A class before the choice of specialisations (object.hpp:9-36). -/
structure CClass where
  name : Str
  members : List CMember

/-- The members as an operation sees them when the headers `inc` are included: each `write(name, ref)` is an instantiation for the type of
the member (serialize_object.hpp:56-71, write_object.hpp:56-68). -/
def buildMembers (op : Op) (inc : Header → Bool) : List CMember → Option (List Member)
  | [] => some []
  | m :: ms => (resolve op inc m.ty).bind fun T => (buildMembers op inc ms).map (⟨m.name, m.kind, T⟩ :: ·)

/-- All classes compile, and `K` is the table of classes. -/
def Built (op : Op) (inc : Header → Bool) (C : Nat → CClass) (K : Nat → Class) : Prop :=
  ∀ c, ∃ ms, buildMembers op inc (C c).members = some ms ∧ K c = ⟨(C c).name, ms⟩

/-! ## Texts -/

/-- A C++ object that holds a text: `std::string`, `std::string_view`, `char[N]` with all its characters, `const char*` with the characters it points to,
up to and with the terminating NUL. -/
inductive Holder
  | string (s : Str)
  | view (s : Str)
  | array (cs : Str)
  | pointer (cs : Str)

/-- Its type; `c` is the type `char`. -/
def Holder.type (c : IntTy) : Holder → CTy
  | .string _ => .str
  | .view _ => .view
  | .array cs => .chars cs.length
  | .pointer _ => .raw (.int c)

/-- The number of a character in the type `char`. -/
def charValue (c : IntTy) (b : UInt8) : Int :=
  if c.signed && b.toNat ≥ 128 then (b.toNat : Int) - 256 else b.toNat

/-- Its value, for the type that is chosen: `SetString(value, N - 1)` takes all characters of an array but the last (serialize_string.hpp:14, write_string.hpp:13);
for a pointer, `serialize(*pointer, json, context)` takes the object pointed to, which is a `char` (serialize_pointer.hpp:16-19, write_pointer.hpp:16-19). -/
def Holder.value (c : IntTy) : Holder → Val
  | .string s => .prim (.str s)
  | .view s => .prim (.str s)
  | .array cs => .prim (.str (cs.take (cs.length - 1)))
  | .pointer cs => .uptr (.prim (.int (charValue c (cs.headD 0))))

end Verif.Dispatch
