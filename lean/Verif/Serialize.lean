import Verif.Leaf

/-!
# Model of serialize.hpp and serialize_*.hpp

Serialization into a DOM. The reference table (detail/references.hpp) maps addresses of shared objects to
the segments of their first occurrence; it is threaded through the computation and kept also when a part
fails, because `JsonObjectSerializer::write` carries on after a failure (serialize_object.hpp:65-67).

`SerializerContext` (detail/output_context.hpp) is the list of segments, innermost first.
-/

namespace Verif.Core

/-- `ReferenceTable<std::shared_ptr<void>, Segments>` (detail/references.hpp): most recent entry first.
Addresses identify shared objects; aliasing pointers into the interior of other shared objects are not
covered. -/
abbrev STab := List (Nat × List Seg)

/-- `ReferenceTable::get` (references.hpp:10-18). -/
def STab.get (σ : STab) (a : Nat) : Option (List Seg) := σ.lookup a

/-- `ReferenceTable::put` (references.hpp:20-28): `std::map::insert` keeps an existing entry. -/
def STab.put (σ : STab) (a : Nat) (segs : List Seg) : STab :=
  match σ.lookup a with
  | some _ => σ
  | none => (a, segs) :: σ

/-- Outcome of a serializer: undefined behaviour, or the new reference table and `some` result (`true`) or
`none` (`false`). -/
inductive SRes (α : Type)
  | ub
  | done (σ : STab) (r : Option α)

/-- Apply a function to the result. -/
def SRes.map {α β : Type} (f : α → β) : SRes α → SRes β
  | .ub => .ub
  | .done σ r => .done σ (r.map f)

/-- A serializer of some value, waiting for context and table. -/
abbrev SerFn := List Seg → STab → SRes Json

/-- The loop of `JsonDictionarySerializer` (serialize_map.hpp:19-30). -/
def serEntries : List (Str × SerFn) → List Seg → STab → SRes (List (Str × Json))
  | [], _, σ => .done σ (some [])
  | (k, f) :: rest, segs, σ =>
      match f (Seg.name k :: segs) σ with
      | .ub => .ub
      | .done σ' none => .done σ' none
      | .done σ' (some j) => (serEntries rest segs σ').map ((k, j) :: ·)

/-- Bring the entries of an unordered map into iteration order. -/
def inOrder {α : Type} (keys : List Str) (kvs : List (Str × α)) : List (Str × α) :=
  keys.filterMap fun k => (kvs.lookup k).map fun a => (k, a)

/-- Entries of a map in the order of a range-based `for` loop: ascending for `std::map`, some order for
`std::unordered_map`. -/
def iterate {α : Type} (env : Env) (ordered : Bool) (segs : List Seg) (kvs : List (Str × α)) : List (Str × α) :=
  if ordered then kvs else inOrder (env.order segs (kvs.map (·.1))) kvs

mutual
/-- `serialize(obj, json, context)` (serialize.hpp:23-28), by type:
leaves (`serPrim`); `std::vector` (serialize_vector.hpp:14-29); `std::array` (serialize_array.hpp:14-29);
`std::set` (serialize_set.hpp:14-29); maps and vectors of pairs (serialize_map.hpp:16-31); tuples and pairs
(serialize_tuple.hpp:15-44); variants (serialize_variant.hpp:13-21); classes (serialize_object.hpp:106-113);
unique pointers (serialize_pointer.hpp:15-18); shared pointers (serialize_pointer.hpp:38-62).
Dereferencing a null pointer is undefined behaviour (also for a null `shared_ptr`, which is not in the
table because entries are made after dereferencing only). -/
def ser (env : Env) : Val → Ty → List Seg → STab → SRes Json
  | .prim p, .prim k, _, σ =>
      match serPrim env k p with
      | .ub => .ub
      | .fail => .done σ none
      | .ok j => .done σ (some j)
  | .seq vs, .vec t, segs, σ => (serItems env vs (List.replicate vs.length t) 0 segs σ).map .arr
  | .tup vs, .arr n t, segs, σ =>
      if vs.length = n then (serItems env vs (List.replicate n t) 0 segs σ).map .arr else .ub
  | .tup vs, .tuple ts, segs, σ => (serItems env vs ts 0 segs σ).map .arr
  | .set vs, .set t, segs, σ => (serSet env vs t segs σ).map .arr
  | .map kvs, .map ordered t, segs, σ =>
      (serEntries (iterate env ordered segs (serVals env kvs t)) segs σ).map .obj
  | .dict kvs, .dict t, segs, σ => (serEntries (serVals env kvs t) segs σ).map .obj
  | .alt i v, .variant ts, segs, σ =>
      match ts[i]? with
      | some t => ser env v t segs σ
      | none => .ub
  | .obj vs, .cls c, segs, σ => (serMembers env vs (env.members c) segs σ).map .obj
  | .uptr v, .uptr t, segs, σ => ser env v t segs σ
  | .sptr a v, .sptr t, segs, σ =>
      match σ.get a with
      | some s => .done σ (some (.obj [(lit "$ref", .str (pathStr s))]))
      | none =>
          match ser env v t segs σ with
          | .ub => .ub
          | .done σ' none => .done σ' none
          | .done σ' (some j) => .done (σ'.put a segs) (some j)
  | _, _, _, _ => .ub

/-- Elements with an index segment each: the loops of serialize_vector.hpp:19-28, serialize_array.hpp:19-28
and serialize_tuple.hpp:26-44. The first failure ends the loop. -/
def serItems (env : Env) : List Val → List Ty → Nat → List Seg → STab → SRes (List Json)
  | [], [], _, _, σ => .done σ (some [])
  | v :: vs, t :: ts, k, segs, σ =>
      match ser env v t (.index k :: segs) σ with
      | .ub => .ub
      | .done σ' none => .done σ' none
      | .done σ' (some j) => (serItems env vs ts (k + 1) segs σ').map (j :: ·)
  | _, _, _, _, _ => .ub

/-- The loop of serialize_set.hpp:19-28: the elements are serialized in the context of the set itself
(line 22 passes `context`, not `item_context`). -/
def serSet (env : Env) : List Val → Ty → List Seg → STab → SRes (List Json)
  | [], _, _, σ => .done σ (some [])
  | v :: vs, t, segs, σ =>
      match ser env v t segs σ with
      | .ub => .ub
      | .done σ' none => .done σ' none
      | .done σ' (some j) => (serSet env vs t segs σ').map (j :: ·)

/-- The serializers of the values of a map. -/
def serVals (env : Env) : List (Str × Val) → Ty → List (Str × SerFn)
  | [], _ => []
  | (k, v) :: kvs, t => (k, ser env v t) :: serVals env kvs t

/-- `persist` with a `JsonObjectSerializer` (serialize_object.hpp:20-72): an optional member that is not
engaged is skipped (24-28); a member that fails is left out and **the result stays `true`** (65-67), so
`if (!result)` (59-61) never applies. -/
def serMembers (env : Env) : List Val → List Member → List Seg → STab → SRes (List (Str × Json))
  | [], [], _, σ => .done σ (some [])
  | v :: vs, m :: ms, segs, σ =>
      match m.kind, v with
      | .optional, .absent => serMembers env vs ms segs σ
      | .optional, .present w =>
          (match ser env w m.ty (Seg.name m.name :: segs) σ with
          | .ub => .ub
          | .done σ' none => serMembers env vs ms segs σ'
          | .done σ' (some j) => (serMembers env vs ms segs σ').map ((m.name, j) :: ·))
      | .optional, _ => .ub
      | _, v =>
          (match ser env v m.ty (Seg.name m.name :: segs) σ with
          | .ub => .ub
          | .done σ' none => serMembers env vs ms segs σ'
          | .done σ' (some j) => (serMembers env vs ms segs σ').map ((m.name, j) :: ·))
  | _, _, _, _ => .ub
end

/-- `serialize_to_document` (serialize.hpp:33-52): `none` is undefined behaviour, `some none` is failure
(`false` or `JsonSerializationError`). -/
def serializeToDocument (env : Env) (t : Ty) (v : Val) : Option (Option Json) :=
  match ser env v t [] [] with
  | .ub => none
  | .done _ r => some r

end Verif.Core
