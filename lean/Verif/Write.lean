import Verif.Serialize

/-!
# Model of write.hpp and write_*.hpp

The writers call the methods of a `rapidjson::Writer`. The model records these calls (`Event`); the text
is the concatenation of the texts of the calls (RapidJSON contract), so equality of event sequences is
equality of texts.
-/

namespace Verif.Core
open Verif.Numeric

/-- Calls of a `rapidjson::Writer`, and events of a `rapidjson::Reader` (detail/parse_event.hpp:20-131). -/
inductive Event
  | null
  | bool (b : Bool)
  | num (n : JsonNum)
  | str (s : Str)
  | startArr
  | endArr
  | startObj
  | key (k : Str)
  | endObj
deriving DecidableEq, Repr

mutual
/-- The events of a document in depth-first order: `rapidjson::Value::Accept`, which
`document_to_string` uses (utility.hpp:14-20), and the events delivered by `rapidjson::Reader` for its text. -/
def events : Json → List Event
  | .null => [.null]
  | .bool b => [.bool b]
  | .num n => [.num n]
  | .str s => [.str s]
  | .arr xs => .startArr :: (eventsItems xs ++ [.endArr])
  | .obj ms => .startObj :: (eventsMembers ms ++ [.endObj])

/-- Events of the elements of an array. -/
def eventsItems : List Json → List Event
  | [] => []
  | j :: js => events j ++ eventsItems js

/-- Events of the members of an object. -/
def eventsMembers : List (Str × Json) → List Event
  | [] => []
  | (k, j) :: ms => .key k :: (events j ++ eventsMembers ms)
end

/-- Outcome of a writer: undefined behaviour, or the new reference table, the returned truth value and the
calls made so far (also on failure). -/
inductive WRes
  | ub
  | done (σ : STab) (ok : Bool) (es : List Event)

/-- Put events in front. -/
def WRes.before (pre : List Event) : WRes → WRes
  | .ub => .ub
  | .done σ ok es => .done σ ok (pre ++ es)

/-- Append the closing event when the part before has succeeded. -/
def WRes.close (e : Event) : WRes → WRes
  | .ub => .ub
  | .done σ true es => .done σ true (es ++ [e])
  | .done σ false es => .done σ false es

/-- A writer of some value, waiting for context and table. -/
abbrev WriteFn := List Seg → STab → WRes

/-- The loop of `JsonDictionaryWriter` (write_map.hpp:19-26). -/
def writeEntries : List (Str × WriteFn) → List Seg → STab → WRes
  | [], _, σ => .done σ true []
  | (k, f) :: rest, segs, σ =>
      match f (Seg.name k :: segs) σ with
      | .ub => .ub
      | .done σ' false es => .done σ' false (.key k :: es)
      | .done σ' true es => (writeEntries rest segs σ').before (.key k :: es)

mutual
/-- `serialize(obj, writer, context)` (write.hpp:23-28), by type: leaves (`serPrim`, one call each);
`std::vector` (write_vector.hpp:14-27); `std::array` (write_array.hpp:14-27); `std::set`
(write_set.hpp:14-27); maps and vectors of pairs (write_map.hpp:16-29); tuples and pairs
(write_tuple.hpp:14-44); variants (write_variant.hpp:13-21); classes (write_object.hpp:103-114); unique
pointers (write_pointer.hpp:15-18); shared pointers (write_pointer.hpp:38-59). -/
def wr (env : Env) : Val → Ty → List Seg → STab → WRes
  | .prim p, .prim k, _, σ =>
      match serPrim env k p with
      | .ub => .ub
      | .fail => .done σ false []
      | .ok j => .done σ true (events j)
  | .seq vs, .vec t, segs, σ =>
      ((wrItems env vs (List.replicate vs.length t) 0 segs σ).before [.startArr]).close .endArr
  | .tup vs, .arr n t, segs, σ =>
      if vs.length = n then ((wrItems env vs (List.replicate n t) 0 segs σ).before [.startArr]).close .endArr
      else .ub
  | .tup vs, .tuple ts, segs, σ => ((wrItems env vs ts 0 segs σ).before [.startArr]).close .endArr
  | .set vs, .set t, segs, σ => ((wrSet env vs t segs σ).before [.startArr]).close .endArr
  | .map kvs, .map ordered t, segs, σ =>
      ((writeEntries (iterate env ordered segs (wrVals env kvs t)) segs σ).before [.startObj]).close .endObj
  | .dict kvs, .dict t, segs, σ =>
      ((writeEntries (wrVals env kvs t) segs σ).before [.startObj]).close .endObj
  | .alt i v, .variant ts, segs, σ =>
      match ts[i]? with
      | some t => wr env v t segs σ
      | none => .ub
  | .obj vs, .cls c, segs, σ => ((wrMembers env vs (env.members c) segs σ).before [.startObj]).close .endObj
  | .uptr v, .uptr t, segs, σ => wr env v t segs σ
  | .sptr a v, .sptr t, segs, σ =>
      match σ.get a with
      | some s => .done σ true [.startObj, .key (lit "$ref"), .str (pathStr s), .endObj]
      | none =>
          match wr env v t segs σ with
          | .ub => .ub
          | .done σ' false es => .done σ' false es
          | .done σ' true es => .done (σ'.put a segs) true es
  | _, _, _, _ => .ub

/-- Elements with an index segment each: the loops of write_vector.hpp:18-24, write_array.hpp:18-24 and
write_tuple.hpp:26-43. -/
def wrItems (env : Env) : List Val → List Ty → Nat → List Seg → STab → WRes
  | [], [], _, _, σ => .done σ true []
  | v :: vs, t :: ts, k, segs, σ =>
      match wr env v t (.index k :: segs) σ with
      | .ub => .ub
      | .done σ' false es => .done σ' false es
      | .done σ' true es => (wrItems env vs ts (k + 1) segs σ').before es
  | _, _, _, _, _ => .ub

/-- The loop of write_set.hpp:18-24: the elements are written in the context of the set itself (line 20
passes `context`, not `item_context`). -/
def wrSet (env : Env) : List Val → Ty → List Seg → STab → WRes
  | [], _, _, σ => .done σ true []
  | v :: vs, t, segs, σ =>
      match wr env v t segs σ with
      | .ub => .ub
      | .done σ' false es => .done σ' false es
      | .done σ' true es => (wrSet env vs t segs σ').before es

/-- The writers of the values of a map. -/
def wrVals (env : Env) : List (Str × Val) → Ty → List (Str × WriteFn)
  | [], _ => []
  | (k, v) :: kvs, t => (k, wr env v t) :: wrVals env kvs t

/-- `persist` with a `JsonObjectWriter` (write_object.hpp:21-69): after a failure the remaining members are
skipped (60-62) and `result` stays `false` (67). -/
def wrMembers (env : Env) : List Val → List Member → List Seg → STab → WRes
  | [], [], _, σ => .done σ true []
  | v :: vs, m :: ms, segs, σ =>
      match m.kind, v with
      | .optional, .absent => wrMembers env vs ms segs σ
      | .optional, .present w =>
          (match wr env w m.ty (Seg.name m.name :: segs) σ with
          | .ub => .ub
          | .done σ' false es => .done σ' false (.key m.name :: es)
          | .done σ' true es => (wrMembers env vs ms segs σ').before (.key m.name :: es))
      | .optional, _ => .ub
      | _, v =>
          (match wr env v m.ty (Seg.name m.name :: segs) σ with
          | .ub => .ub
          | .done σ' false es => .done σ' false (.key m.name :: es)
          | .done σ' true es => (wrMembers env vs ms segs σ').before (.key m.name :: es))
  | _, _, _, _ => .ub
end

/-- What the caller of `write_to_string(obj, str)` observes (write.hpp:41-53): the returned truth value and
the content of `str` afterwards, which was `before`; texts are represented by the events written. -/
def writeToString (env : Env) (t : Ty) (v : Val) (before : List Event) : Option (Bool × List Event) :=
  match wr env v t [] [] with
  | .ub => none
  | .done _ true es => some (true, es)
  | .done _ false _ => some (false, before)

end Verif.Core
