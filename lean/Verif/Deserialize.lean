import Verif.Serialize

/-!
# Model of deserialize.hpp and deserialize_*.hpp

Reading a DOM. The template argument `Exception` is the argument `exc`: a failing check throws or returns
`false`. The outcome of a reader that returns records what is left in the target also when it returns
`false`, because most readers work in place.

A place of the document (a `const rapidjson::Value*`) is the list of child positions, innermost first.
-/

namespace Verif.Core

/-- A node of the document: child positions from the node up to the root. -/
abbrev Loc := List Nat

/-- `GlobalDeserializerContext::references` (detail/deserialize_context.hpp:14): for a node, the shared object
read from it with its address, the type it was read as, and its value; and the next unused address.
Objects are complete when they are entered and are not modified afterwards. -/
structure DState where
  refs : List (Loc × (Nat × Ty × Val))
  next : Nat

/-- `ReferenceTable::get` (references.hpp:10-18). -/
def DState.get (st : DState) (loc : Loc) : Option (Nat × Ty × Val) := st.refs.lookup loc

/-- `ReferenceTable::put` (references.hpp:20-28): `std::map::insert` keeps an existing entry. -/
def DState.put (st : DState) (loc : Loc) (entry : Nat × Ty × Val) : DState :=
  match st.refs.lookup loc with
  | some _ => st
  | none => { st with refs := (loc, entry) :: st.refs }

/-- Outcome of a reader: undefined behaviour, an exception (with the segments from which its path text is
made and the reason), or a truth value with the target afterwards and the table. -/
inductive DRes (α : Type)
  | ub
  | threw (segs : List Seg) (e : Err)
  | done (ok : Bool) (a : α) (st : DState)

/-- Apply a function to what was read. -/
def DRes.map {α β : Type} (f : α → β) : DRes α → DRes β
  | .ub => .ub
  | .threw segs e => .threw segs e
  | .done ok a st => .done ok (f a) st

/-- A failed check: `if constexpr (Exception) throw ... else return false`
(e.g. deserialize_check.hpp:15-25). -/
def DRes.reject {α : Type} (exc : Bool) (segs : List Seg) (e : Err) (target : α) (st : DState) : DRes α :=
  if exc then .threw segs e else .done false target st

/-- A reader of some node: `Exception`, type, target, place, context. -/
abbrev DesFn := Bool → Ty → Val → Loc → List Seg → DState → DRes Val

/-- The loops over array elements in deserialize_vector.hpp:23-31, deserialize_set.hpp:23-31 and
deserialize_array.hpp:25-34: each element is read into a new variable `T item;`; the first failure ends the
loop. The result is the list of elements read so far. -/
def runSame (env : Env) (t : Ty) (exc : Bool) : List DesFn → Nat → Loc → List Seg → DState → DRes (List Val)
  | [], _, _, _, st => .done true [] st
  | f :: fs, k, loc, segs, st =>
      match f exc t (env.fresh t) (k :: loc) (.index k :: segs) st with
      | .ub => .ub
      | .threw s e => .threw s e
      | .done false _ st' => .done false [] st'
      | .done true v st' => (runSame env t exc fs (k + 1) loc segs st').map (v :: ·)

/-- `deserialize_elements` (deserialize_tuple.hpp:27-42): in place, up to the first failure. -/
def runTuple (env : Env) (exc : Bool) : List DesFn → List Ty → List Val → Nat → Loc → List Seg → DState → DRes (List Val)
  | f :: fs, t :: ts, targets, k, loc, segs, st =>
      match f exc t (targets.headD (env.fresh t)) (k :: loc) (.index k :: segs) st with
      | .ub => .ub
      | .threw s e => .threw s e
      | .done false v st' => .done false (v :: targets.tail) st'
      | .done true v st' => (runTuple env exc fs ts targets.tail (k + 1) loc segs st').map (v :: ·)
  | _, _, _, _, _, _, st => .done true [] st

/-- The loop of deserialize_map.hpp:24-31: entries read so far, in the order of the document. The key is
taken as a C string (lines 26 and 30). -/
def runEntries (env : Env) (t : Ty) (exc : Bool) : List (Str × DesFn) → Nat → Loc → List Seg → DState → DRes (List (Str × Val))
  | [], _, _, _, st => .done true [] st
  | (key, f) :: fs, k, loc, segs, st =>
      match f exc t (env.fresh t) (k :: loc) (Seg.name (cstr key) :: segs) st with
      | .ub => .ub
      | .threw s e => .threw s e
      | .done false _ st' => .done false [] st'
      | .done true v st' => (runEntries env t exc fs (k + 1) loc segs st').map ((cstr key, v) :: ·)

/-- `persist` with a `JsonObjectDeserializer` (deserialize_object.hpp:31-82). `res` is the member variable
`result`: **it is overwritten by every member that is present** (lines 40, 56, 78), and set to `false` by a
missing required member (65). An optional member that is present is assigned also when reading it fails
(41). -/
def runMembers (env : Env) (exc : Bool) (fs : List (Str × DesFn)) (loc : Loc) (segs : List Seg) :
    List Member → List Val → Bool → DState → DRes (List Val)
  | [], _, res, st => .done res [] st
  | m :: ms, targets, res, st =>
      let target := targets.headD (env.fresh m.ty)
      match findMember m.name fs with
      | some (i, f) =>
          (match f exc m.ty (if m.kind = .optional then env.fresh m.ty else target) (i :: loc) (Seg.name (cstr m.name) :: segs) st with
          | .ub => .ub
          | .threw s e => .threw s e
          | .done ok v st' =>
              (runMembers env exc fs loc segs ms targets.tail ok st').map
                ((if m.kind = .optional then .present v else v) :: ·))
      | none =>
          match m.kind with
          | .optional => (runMembers env exc fs loc segs ms targets.tail res st).map (.absent :: ·)
          | .default => (runMembers env exc fs loc segs ms targets.tail res st).map (target :: ·)
          | .required =>
              if exc then .threw segs (.missing m.name)
              else (runMembers env exc fs loc segs ms targets.tail false st).map (target :: ·)

/-- Components of a tuple or array value. -/
def Val.components : Val → List Val
  | .tup vs => vs
  | _ => []

/-- Member values of an object. -/
def Val.members : Val → List Val
  | .obj vs => vs
  | _ => []

/-- A pair of a string and a value as an entry of a dictionary. -/
def dictEntry : Val → Str × Val
  | .tup [.prim (.str k), v] => (k, v)
  | v => ([], v)

/-- The node has a member `"$ref"` (deserialize_pointer.hpp:40-42). -/
def refMember : Json → Option Json
  | .obj ms => (findMember (lit "$ref") ms).map (·.2)
  | _ => none

/-- Reading a reference (deserialize_pointer.hpp:43-55). A `"$ref"` that is not a string and an invalid
pointer are assertion failures in RapidJSON; a cast to another type is undefined behaviour as soon as the
object is used. A reference that cannot be resolved returns `false`, **also in the throwing variant**. -/
def readRef (env : Env) (root : Json) (t : Ty) (r : Json) (target : Val) (st : DState) : DRes Val :=
  match r with
  | .str p =>
      match pointerTokens env p with
      | none => .ub
      | some toks =>
          match pointerGet root toks with
          | none => .done false target st
          | some q =>
              match st.get q.reverse with
              | none => .done false target st
              | some (a, t', v) => if t' = t then .done true (.sptr a v) st else .ub
  | _ => .ub

mutual
/-- `JsonDeserializer<Exception, T>::operator()` on the node `j` (deserialize.hpp:21-26), given the readers of
its elements and members, by type: leaves (`desPrim`), vector (deserialize_vector.hpp:15-33), array
(deserialize_array.hpp:15-37), set (deserialize_set.hpp:15-33), maps (deserialize_map.hpp:15-33), a vector of
pairs, which is read as a vector (there is no specialisation for dictionaries), tuple
(deserialize_tuple.hpp:14-42), variant (deserialize_variant.hpp:16-42), class (deserialize_object.hpp:126-135),
`unique_ptr` (deserialize_pointer.hpp:21-30), `shared_ptr` (38-66). -/
def node (env : Env) (root j : Json) (items : List DesFn) (fields : List (Str × DesFn)) :
    Ty → Bool → Val → Loc → List Seg → DState → DRes Val
  | .prim p, exc, target, _, segs, st =>
      match desPrim env p j with
      | .ub => .ub
      | .reject e => .reject exc segs e (spoil p j target) st
      | .ok pv => .done true (.prim pv) st
  | .vec t, exc, target, loc, segs, st =>
      match j with
      | .arr _ => (runSame env t exc items 0 loc segs st).map .seq
      | _ => .reject exc segs .expectedArray target st
  | .arr n t, exc, target, loc, segs, st =>
      match j with
      | .arr js =>
          if js.length = n then
            match runSame env t exc items 0 loc segs st with
            | .ub => .ub
            | .threw s e => .threw s e
            | .done true vs st' => .done true (.tup vs) st'
            | .done false _ st' => .done false target st'
          else .reject exc segs (.sizeMismatch n js.length) target st
      | _ => .reject exc segs .expectedArray target st
  | .set t, exc, target, loc, segs, st =>
      match j with
      | .arr _ => (runSame env t exc items 0 loc segs st).map fun vs => .set (vs.foldl (fun s v => setInsert env.less v s) [])
      | _ => .reject exc segs .expectedArray target st
  | .map _ t, exc, target, loc, segs, st =>
      match j with
      | .obj _ => (runEntries env t exc fields 0 loc segs st).map fun kvs => .map (kvs.foldl (fun s p => mapAssign p.1 p.2 s) [])
      | _ => .reject exc segs .expectedObject target st
  | .dict t, exc, target, loc, segs, st =>
      match j with
      | .arr _ => (runSame env (.tuple [.prim .str, t]) exc items 0 loc segs st).map fun vs => .dict (vs.map dictEntry)
      | _ => .reject exc segs .expectedArray target st
  | .tuple ts, exc, target, loc, segs, st =>
      match j with
      | .arr js =>
          if js.length = ts.length then (runTuple env exc items ts target.components 0 loc segs st).map .tup
          else .reject exc segs (.sizeMismatch ts.length js.length) target st
      | _ => .reject exc segs .expectedArray target st
  | .variant ts, exc, target, loc, segs, st =>
      match alternatives env root j items fields ts 0 loc segs st with
      | .ub => .ub
      | .threw s e => .threw s e
      | .done true v st' => .done true v st'
      | .done false _ st' => .reject exc segs .noAlternative target st'
  | .cls c, exc, target, loc, segs, st =>
      match j with
      | .obj _ => (runMembers env exc fields loc segs (env.members c) target.members true st).map .obj
      | _ => .reject exc segs .expectedObject target st
  | .uptr t, exc, target, loc, segs, st =>
      match node env root j items fields t exc (env.ctor t) loc segs st with
      | .ub => .ub
      | .threw s e => .threw s e
      | .done true v st' => .done true (.uptr v) st'
      | .done false _ st' => .done false target st'
  | .sptr t, exc, target, loc, segs, st =>
      match refMember j with
      | some r => readRef env root t r target st
      | none =>
          match node env root j items fields t exc (env.ctor t) loc segs { st with next := st.next + 1 } with
          | .ub => .ub
          | .threw s e => .threw s e
          | .done false v st' => .done false (.sptr st.next v) st'
          | .done true v st' => .done true (.sptr st.next v) (st'.put loc (st.next, t, v))

/-- `(... || deserialize_variant<Ts>(json, value))` (deserialize_variant.hpp:18, 31-42): the alternatives in
order, each read without exceptions into a new variable `T var;`. -/
def alternatives (env : Env) (root j : Json) (items : List DesFn) (fields : List (Str × DesFn)) :
    List Ty → Nat → Loc → List Seg → DState → DRes Val
  | [], _, _, _, st => .done false .nullptr st
  | t :: ts, i, loc, segs, st =>
      match node env root j items fields t false (env.fresh t) loc segs st with
      | .ub => .ub
      | .threw s e => .threw s e
      | .done true v st' => .done true (.alt i v) st'
      | .done false _ st' => alternatives env root j items fields ts (i + 1) loc segs st'
end

mutual
/-- `deserialize<Exception>(json, obj, context)` (deserialize.hpp:21-26) for the node `j` of the document
`root`. -/
def deser (env : Env) (root : Json) : Json → DesFn
  | .null => fun exc t => node env root .null [] [] t exc
  | .bool b => fun exc t => node env root (.bool b) [] [] t exc
  | .num n => fun exc t => node env root (.num n) [] [] t exc
  | .str s => fun exc t => node env root (.str s) [] [] t exc
  | .arr js => fun exc t => node env root (.arr js) (deserItems env root js) [] t exc
  | .obj ms => fun exc t => node env root (.obj ms) [] (deserFields env root ms) t exc

/-- The readers of the elements of an array. -/
def deserItems (env : Env) (root : Json) : List Json → List DesFn
  | [] => []
  | j :: js => deser env root j :: deserItems env root js

/-- The readers of the members of an object. -/
def deserFields (env : Env) (root : Json) : List (Str × Json) → List (Str × DesFn)
  | [] => []
  | (k, j) :: ms => (k, deser env root j) :: deserFields env root ms
end

/-- `bool deserialize(rapidjson::Document& doc, T& obj)` (deserialize.hpp:31-41) on a document without parse
error: `none` is undefined behaviour; otherwise the returned value and the object afterwards. `next` is the
first address that the allocator returns. -/
def deserializeBool (env : Env) (t : Ty) (root : Json) (target : Val) (next : Nat) : Option (Bool × Val) :=
  match deser env root root false t target [] [] ⟨[], next⟩ with
  | .ub => none
  | .threw _ _ => none
  | .done ok v _ => some (ok, v)

/-- Outcome of the throwing variant. -/
inductive Thrown
  | ub
  | threw (path : Str) (e : Err)
  | returned (v : Val)

/-- `T deserialize(rapidjson::Document& doc)` (deserialize.hpp:46-59) on a document without parse error: **the
truth value returned by `deserialize<true>` is ignored** (line 57). -/
def deserializeThrow (env : Env) (t : Ty) (root : Json) (next : Nat) : Thrown :=
  match deser env root root true t (env.fresh t) [] [] ⟨[], next⟩ with
  | .ub => .ub
  | .threw segs e => .threw (pathStr segs) e
  | .done _ v _ => .returned v

/-! ## Equations -/

/-- The elements of an array. -/
def Json.items : Json → List Json
  | .arr js => js
  | _ => []

/-- The members of an object. -/
def Json.fields : Json → List (Str × Json)
  | .obj ms => ms
  | _ => []

theorem deserItems_eq (env : Env) (root : Json) (js : List Json) : deserItems env root js = js.map (deser env root) := by
  induction js with
  | nil => simp [deserItems]
  | cons j js ih => simp [deserItems, ih]

theorem deserFields_eq (env : Env) (root : Json) (ms : List (Str × Json)) :
    deserFields env root ms = ms.map fun p => (p.1, deser env root p.2) := by
  induction ms with
  | nil => simp [deserFields]
  | cons p ms ih => cases p; simp [deserFields, ih]

theorem deser_node (env : Env) (root j : Json) (exc : Bool) (t : Ty) :
    deser env root j exc t =
      node env root j (j.items.map (deser env root)) (j.fields.map fun p => (p.1, deser env root p.2)) t exc := by
  cases j <;> simp [deser, Json.items, Json.fields, deserItems_eq, deserFields_eq]

section
variable (env : Env) (root j : Json) (exc : Bool) (target : Val) (loc : Loc) (segs : List Seg) (st : DState)

theorem deser_prim (p : Prim) : deser env root j exc (.prim p) target loc segs st =
    match desPrim env p j with
    | .ub => .ub
    | .reject e => .reject exc segs e (spoil p j target) st
    | .ok pv => .done true (.prim pv) st := by
  rw [deser_node, node]

theorem deser_vec (t : Ty) : deser env root j exc (.vec t) target loc segs st =
    match j with
    | .arr js => (runSame env t exc (js.map (deser env root)) 0 loc segs st).map .seq
    | _ => .reject exc segs .expectedArray target st := by
  rw [deser_node]; cases j <;> simp [node, Json.items]

theorem deser_arr (n : Nat) (t : Ty) : deser env root j exc (.arr n t) target loc segs st =
    match j with
    | .arr js =>
        if js.length = n then
          match runSame env t exc (js.map (deser env root)) 0 loc segs st with
          | .ub => .ub
          | .threw s e => .threw s e
          | .done true vs st' => .done true (.tup vs) st'
          | .done false _ st' => .done false target st'
        else .reject exc segs (.sizeMismatch n js.length) target st
    | _ => .reject exc segs .expectedArray target st := by
  rw [deser_node]; cases j <;> simp [node, Json.items]

theorem deser_set (t : Ty) : deser env root j exc (.set t) target loc segs st =
    match j with
    | .arr js => (runSame env t exc (js.map (deser env root)) 0 loc segs st).map fun vs => .set (vs.foldl (fun s v => setInsert env.less v s) [])
    | _ => .reject exc segs .expectedArray target st := by
  rw [deser_node]; cases j <;> simp [node, Json.items]

theorem deser_map (o : Bool) (t : Ty) : deser env root j exc (.map o t) target loc segs st =
    match j with
    | .obj ms => (runEntries env t exc (ms.map fun p => (p.1, deser env root p.2)) 0 loc segs st).map
        fun kvs => .map (kvs.foldl (fun s p => mapAssign p.1 p.2 s) [])
    | _ => .reject exc segs .expectedObject target st := by
  rw [deser_node]; cases j <;> simp [node, Json.fields]

theorem deser_dict (t : Ty) : deser env root j exc (.dict t) target loc segs st =
    match j with
    | .arr js => (runSame env (.tuple [.prim .str, t]) exc (js.map (deser env root)) 0 loc segs st).map fun vs => .dict (vs.map dictEntry)
    | _ => .reject exc segs .expectedArray target st := by
  rw [deser_node]; cases j <;> simp [node, Json.items]

theorem deser_tuple (ts : List Ty) : deser env root j exc (.tuple ts) target loc segs st =
    match j with
    | .arr js =>
        if js.length = ts.length then (runTuple env exc (js.map (deser env root)) ts target.components 0 loc segs st).map .tup
        else .reject exc segs (.sizeMismatch ts.length js.length) target st
    | _ => .reject exc segs .expectedArray target st := by
  rw [deser_node]; cases j <;> simp [node, Json.items]

theorem deser_cls (c : Nat) : deser env root j exc (.cls c) target loc segs st =
    match j with
    | .obj ms => (runMembers env exc (ms.map fun p => (p.1, deser env root p.2)) loc segs (env.members c) target.members true st).map .obj
    | _ => .reject exc segs .expectedObject target st := by
  rw [deser_node]; cases j <;> simp [node, Json.fields]

theorem deser_uptr (t : Ty) : deser env root j exc (.uptr t) target loc segs st =
    match deser env root j exc t (env.ctor t) loc segs st with
    | .ub => .ub
    | .threw s e => .threw s e
    | .done true v st' => .done true (.uptr v) st'
    | .done false _ st' => .done false target st' := by
  rw [deser_node, node, deser_node]

theorem deser_sptr (t : Ty) : deser env root j exc (.sptr t) target loc segs st =
    match refMember j with
    | some r => readRef env root t r target st
    | none =>
        match deser env root j exc t (env.ctor t) loc segs { st with next := st.next + 1 } with
        | .ub => .ub
        | .threw s e => .threw s e
        | .done false v st' => .done false (.sptr st.next v) st'
        | .done true v st' => .done true (.sptr st.next v) (st'.put loc (st.next, t, v)) := by
  rw [deser_node, node, deser_node]

/-- The alternatives of a variant in terms of `deser`. -/
def tryAll (env : Env) (root j : Json) : List Ty → Nat → Loc → List Seg → DState → DRes Val
  | [], _, _, _, st => .done false .nullptr st
  | t :: ts, i, loc, segs, st =>
      match deser env root j false t (env.fresh t) loc segs st with
      | .ub => .ub
      | .threw s e => .threw s e
      | .done true v st' => .done true (.alt i v) st'
      | .done false _ st' => tryAll env root j ts (i + 1) loc segs st'

theorem alternatives_eq (ts : List Ty) (i : Nat) :
    alternatives env root j (j.items.map (deser env root)) (j.fields.map fun p => (p.1, deser env root p.2)) ts i loc segs st =
      tryAll env root j ts i loc segs st := by
  induction ts generalizing i st with
  | nil => simp [alternatives, tryAll]
  | cons t ts ih =>
    rw [alternatives, tryAll, deser_node]
    simp only [ih]

theorem deser_variant (ts : List Ty) : deser env root j exc (.variant ts) target loc segs st =
    match tryAll env root j ts 0 loc segs st with
    | .ub => .ub
    | .threw s e => .threw s e
    | .done true v st' => .done true v st'
    | .done false _ st' => .reject exc segs .noAlternative target st' := by
  rw [deser_node, node, alternatives_eq]

end

end Verif.Core
