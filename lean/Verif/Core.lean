import Verif.Numeric
import Verif.DateTime
import Verif.EnumConv
import Verif.Base64

/-!
# The universe of types, values and documents

`Ty` is the set of C++ types for which the library provides (de)serializers: one constructor per
specialisation of `JsonSerializer` / `JsonWriter` / `JsonDeserializer` / `JsonParser` / `JsonSchema`.
Classes are named by a number and looked up in a table of classes, so that recursive classes are
included. `Val` are the values of these types, `Json` the documents.
-/

namespace Verif.Core
open Verif.Numeric Verif.EnumConv

/-! ## Types -/

/-- Types without components: `std::nullptr_t`, `bool`, the integer types, `float` and `double`,
`std::string` (for writing also `std::string_view` and string literals), `byte_vector`, `timestamp`,
`std::chrono::year_month_day`, enumerations without names (by underlying type) and enumerations with
names (serialize_fundamental.hpp, serialize_string.hpp, serialize_bytes.hpp, serialize_datetime.hpp,
serialize_date.hpp, serialize_enum.hpp). `Boost.Describe` enumerations are not distinguished from
`enumStr`; C78 relates the two. -/
inductive Prim
  | null
  | bool
  | int (t : IntTy)
  | flt (t : FltTy)
  | str
  | bytes
  | time
  | date
  | enumInt (t : IntTy)
  | enumStr (table : Table)
deriving DecidableEq, Repr

/-- C++ types. `vec` is `std::vector` (serialize_vector.hpp), `arr` is `std::array`
(serialize_array.hpp), `set` is `std::set` (serialize_set.hpp), `map true` is `std::map` and `map false`
is `std::unordered_map` with string keys (serialize_map.hpp:58-68), `dict` is a vector of
(string, value) pairs (dictionary.hpp, serialize_map.hpp:52-56), `tuple` is `std::tuple` and `std::pair`
(serialize_tuple.hpp), `variant` is `std::variant` (serialize_variant.hpp), `cls` is a class with a
`persist` member function (serialize_object.hpp:101-114), `uptr` is `std::unique_ptr` and, for writing,
a raw pointer (serialize_pointer.hpp:10-31), `sptr` is `std::shared_ptr` (serialize_pointer.hpp:33-63). -/
inductive Ty
  | prim (p : Prim)
  | vec (t : Ty)
  | arr (n : Nat) (t : Ty)
  | set (t : Ty)
  | map (ordered : Bool) (t : Ty)
  | dict (t : Ty)
  | tuple (ts : List Ty)
  | variant (ts : List Ty)
  | cls (c : Nat)
  | uptr (t : Ty)
  | sptr (t : Ty)
deriving Repr

mutual
/-- Equality test on types (used for the type check of a pointer cast). -/
def Ty.beq : Ty → Ty → Bool
  | .prim p, .prim q => decide (p = q)
  | .vec s, .vec t => Ty.beq s t
  | .arr m s, .arr n t => decide (m = n) && Ty.beq s t
  | .set s, .set t => Ty.beq s t
  | .map a s, .map b t => decide (a = b) && Ty.beq s t
  | .dict s, .dict t => Ty.beq s t
  | .tuple ss, .tuple ts => Ty.beqs ss ts
  | .variant ss, .variant ts => Ty.beqs ss ts
  | .cls c, .cls d => decide (c = d)
  | .uptr s, .uptr t => Ty.beq s t
  | .sptr s, .sptr t => Ty.beq s t
  | _, _ => false

/-- Equality test on lists of types. -/
def Ty.beqs : List Ty → List Ty → Bool
  | [], [] => true
  | s :: ss, t :: ts => Ty.beq s t && Ty.beqs ss ts
  | _, _ => false
end

mutual
theorem Ty.beq_iff : ∀ s t : Ty, Ty.beq s t = true ↔ s = t
  | .prim p, t => by cases t <;> simp [Ty.beq]
  | .vec s, t => by cases t <;> simp [Ty.beq, Ty.beq_iff s]
  | .arr m s, t => by cases t <;> simp [Ty.beq, Ty.beq_iff s]
  | .set s, t => by cases t <;> simp [Ty.beq, Ty.beq_iff s]
  | .map a s, t => by cases t <;> simp [Ty.beq, Ty.beq_iff s]
  | .dict s, t => by cases t <;> simp [Ty.beq, Ty.beq_iff s]
  | .tuple ss, t => by cases t <;> simp [Ty.beq, Ty.beqs_iff ss]
  | .variant ss, t => by cases t <;> simp [Ty.beq, Ty.beqs_iff ss]
  | .cls c, t => by cases t <;> simp [Ty.beq]
  | .uptr s, t => by cases t <;> simp [Ty.beq, Ty.beq_iff s]
  | .sptr s, t => by cases t <;> simp [Ty.beq, Ty.beq_iff s]

theorem Ty.beqs_iff : ∀ ss ts : List Ty, Ty.beqs ss ts = true ↔ ss = ts
  | [], ts => by cases ts <;> simp [Ty.beqs]
  | s :: ss, ts => by cases ts <;> simp [Ty.beqs, Ty.beq_iff s, Ty.beqs_iff ss]
end

instance : DecidableEq Ty := fun s t => decidable_of_iff _ (Ty.beq_iff s t)

/-- The three ways to declare a member variable (object.hpp: `MEMBER_VARIABLE` on a plain or on a
`std::optional` member, `MEMBER_VARIABLE_DEFAULT`). -/
inductive Kind
  | required
  | optional
  | default
deriving DecidableEq, Repr

/-- A member variable: JSON name, kind, type (of the content, for `std::optional`). -/
structure Member where
  name : Str
  kind : Kind
  ty : Ty
deriving Repr, DecidableEq

/-- A class with a `persist` member function: its type name (used by schemas) and the member variables
in the order of the `&` operators, including those of base classes. -/
structure Class where
  name : Str
  members : List Member
deriving Repr, DecidableEq

/-! ## Values -/

/-- Values of the types without components; enumerators are their underlying integers, time stamps are
clock ticks. -/
inductive PVal
  | null
  | bool (b : Bool)
  | int (v : Int)
  | flt (f : Flt)
  | str (s : Str)
  | bytes (s : Str)
  | time (ticks : Int)
  | date (y : Int) (m d : Nat)
deriving DecidableEq, Repr

/-- C++ values. `seq` is a vector, `tup` an array, pair or tuple, `set` the elements of a set in
ascending order, `map` the entries of a map in ascending order of keys (also for unordered maps, whose
iteration order is a parameter of the model), `dict` a vector of pairs, `alt i v` a variant that holds
alternative `i`, `obj` a class object (values of the listed members), `absent` / `present` an optional
member, `nullptr` a null pointer, `uptr` a non-null unique pointer, `sptr a v` a non-null shared pointer
to the object `v` at address `a`. Object graphs are represented by their unfolding, so `Val` covers the
acyclic graphs. -/
inductive Val
  | prim (p : PVal)
  | seq (vs : List Val)
  | tup (vs : List Val)
  | set (vs : List Val)
  | map (kvs : List (Str × Val))
  | dict (kvs : List (Str × Val))
  | alt (i : Nat) (v : Val)
  | obj (vs : List Val)
  | absent
  | present (v : Val)
  | nullptr
  | uptr (v : Val)
  | sptr (addr : Nat) (v : Val)
deriving Repr

/-! ## Documents -/

/-- A JSON document in memory (`rapidjson::Value`): object members keep their order and repetitions. -/
inductive Json
  | null
  | bool (b : Bool)
  | num (n : JsonNum)
  | str (s : Str)
  | arr (items : List Json)
  | obj (members : List (Str × Json))
deriving Repr

/-- Position of the first member with the given name (`FindMember`, RapidJSON contract). -/
def findMember {α : Type} (name : Str) : List (Str × α) → Option (Nat × α)
  | [] => none
  | (k, a) :: rest =>
      if k = name then some (0, a)
      else match findMember name rest with
        | none => none
        | some (i, b) => some (i + 1, b)

/-! ## Segments of a path -/

/-- `Segment` (detail/segment.hpp:12-26): named iff the name is not empty; an empty name leaves the
index 0 (see `Seg.name`). -/
inductive Seg
  | named (name : Str)
  | index (i : Nat)
deriving DecidableEq, Repr

/-- `Segment(const std::string_view&)` (segment.hpp:15): a segment with an empty name is an index
segment with index 0 (`is_named`, segment.hpp:22). -/
def Seg.name (s : Str) : Seg := if s = [] then .index 0 else .named s

/-! ## Parameters -/

/-- What the C++ program text leaves open. Theorems quantify over all of it. -/
structure Env where
  /-- the classes of the program -/
  classes : Nat → Class
  /-- byte order of the host -/
  endian : Base64.Endian
  /-- memory behind a byte buffer (see `Base64.encode`) -/
  foreign : Base64.Mem
  /-- characters left behind by `std::to_chars` when the number does not fit (see `DateTime.toChars`) -/
  junk : Nat → Str
  /-- clock ticks per second -/
  clk : Nat
  /-- iteration order of an unordered map with the given keys at the given place -/
  order : List Seg → List Str → List Str
  /-- `std::less` of set elements -/
  less : Val → Val → Bool
  /-- content of a local variable `T item;` -/
  fresh : Ty → Val
  /-- content of a value-initialised object (`std::make_unique<T>()`, `emplace_back()`) -/
  ctor : Ty → Val
  /-- tokens of a JSON pointer in URI fragment form (text starting with `#`); `none`: not valid -/
  fragment : Str → Option (List Str)

/-- The members of class `c`. -/
def Env.members (env : Env) (c : Nat) : List Member := (env.classes c).members

/-! ## Ordered containers -/

/-- `std::set::insert`: `less` finds the place; an equivalent element stays. -/
def setInsert (less : Val → Val → Bool) (x : Val) : List Val → List Val
  | [] => [x]
  | y :: ys =>
      if less y x then y :: setInsert less x ys
      else if less x y then x :: y :: ys
      else y :: ys

/-- Lexicographic order of byte strings (`std::less<std::string>`). -/
def strLess : Str → Str → Bool
  | [], [] => false
  | [], _ :: _ => true
  | _ :: _, [] => false
  | a :: as, b :: bs => if a.toNat < b.toNat then true else if b.toNat < a.toNat then false else strLess as bs

/-- `map[key] = value`: replaces the value of an existing key. -/
def mapAssign {α : Type} (k : Str) (a : α) : List (Str × α) → List (Str × α)
  | [] => [(k, a)]
  | (k', a') :: rest =>
      if k' = k then (k, a) :: rest
      else if strLess k' k then (k', a') :: mapAssign k a rest
      else (k, a) :: (k', a') :: rest

/-- The part of a string before the first NUL character: what remains when a `const char*` is turned
into a `std::string` or `std::string_view`. -/
def cstr (s : Str) : Str := s.takeWhile (· ≠ 0)

end Verif.Core
