import Verif.Cost

/-!
# Classes with base classes

The documented way to persist a derived class is `return this->Base::persist(ar) & MEMBER_VARIABLE(...)` in a function that is declared
`constexpr auto persist(Archive& ar)` (README.md:191-200, test/example_classes.hpp:74-81, 295-302). `auto` is never a reference, so the base class returns
a **copy** of the archive, and the members of the derived class are handled by the copy. What the copy finds out (`result`, serialize_object.hpp:79,
write_object.hpp:76, deserialize_object.hpp:102) is lost: the caller asks the original (serialize_object.hpp:111-112, write_object.hpp:108-111,
deserialize_object.hpp:133-134). The same holds for `JsonSchemaDocument` (schema.hpp:610-617), where the base class has the copy.

`own c` is the number of members of class `c` that are handled by the original: those of the innermost base class, or all members if there is no base
class. The DOM serializer never changes `result` (serialize_object.hpp:65-67), the parser and the schema generator only use the list of members
(object_members.hpp:71-77, schema.hpp:418-451), so they treat derived classes as classes with all the members. This is the model of the other two.
-/

namespace Verif.Core

/-! ## Reading -/

/-- `persist` with a `JsonObjectDeserializer` (`runMembers`; deserialize_object.hpp:31-82), when the first `own` members change the `result` of
the original. -/
def runMembersD (env : Env) (exc : Bool) (fs : List (Str × DesFn)) (loc : Loc) (segs : List Seg) :
    Nat → List Member → List Val → Bool → DState → DRes (List Val)
  | _, [], _, res, st => .done res [] st
  | own, m :: ms, targets, res, st =>
      let target := targets.headD (env.fresh m.ty)
      match findMember m.name fs with
      | some (i, f) =>
          (match f exc m.ty (if m.kind = .optional then env.fresh m.ty else target) (i :: loc) (Seg.name (cstr m.name) :: segs) st with
          | .ub => .ub
          | .threw s e => .threw s e
          | .done ok v st' =>
              (runMembersD env exc fs loc segs (own - 1) ms targets.tail (if own = 0 then res else ok) st').map
                ((if m.kind = .optional then .present v else v) :: ·))
      | none =>
          match m.kind with
          | .optional => (runMembersD env exc fs loc segs (own - 1) ms targets.tail res st).map (.absent :: ·)
          | .default => (runMembersD env exc fs loc segs (own - 1) ms targets.tail res st).map (target :: ·)
          | .required =>
              if exc then .threw segs (.missing m.name)
              else (runMembersD env exc fs loc segs (own - 1) ms targets.tail (if own = 0 then res else false) st).map (target :: ·)

mutual
/-- `JsonDeserializer<Exception, T>::operator()` on the node `j` (`node`; deserialize.hpp:21-26 and the same places as there). -/
def nodeD (env : Env) (own : Nat → Nat) (root j : Json) (items : List DesFn) (fields : List (Str × DesFn)) :
    Ty → Bool → Val → Loc → List Seg → DState → DRes Val
  | .prim p, exc, target, _, segs, st =>
      match desPrim env p j with
      | .ub => .ub
      | .reject e => .reject exc segs e (spoil p j target) st
      | .ok pv => .done true (.prim pv) st
  | .vec t, exc, target, loc, segs, st =>
      match j with
      | .arr _ => (runSame env t exc items 0 loc segs st).map .seq
      | _ => .reject exc segs .expectedArray target st
  | .arr n t, exc, target, loc, segs, st =>
      match j with
      | .arr js =>
          if js.length = n then
            match runSame env t exc items 0 loc segs st with
            | .ub => .ub
            | .threw s e => .threw s e
            | .done true vs st' => .done true (.tup vs) st'
            | .done false _ st' => .done false target st'
          else .reject exc segs (.sizeMismatch n js.length) target st
      | _ => .reject exc segs .expectedArray target st
  | .set t, exc, target, loc, segs, st =>
      match j with
      | .arr _ => (runSame env t exc items 0 loc segs st).map fun vs => .set (vs.foldl (fun s v => setInsert env.less v s) [])
      | _ => .reject exc segs .expectedArray target st
  | .map _ t, exc, target, loc, segs, st =>
      match j with
      | .obj _ => (runEntries env t exc fields 0 loc segs st).map fun kvs => .map (kvs.foldl (fun s p => mapAssign p.1 p.2 s) [])
      | _ => .reject exc segs .expectedObject target st
  | .dict t, exc, target, loc, segs, st =>
      match j with
      | .arr _ => (runSame env (.tuple [.prim .str, t]) exc items 0 loc segs st).map fun vs => .dict (vs.map dictEntry)
      | _ => .reject exc segs .expectedArray target st
  | .tuple ts, exc, target, loc, segs, st =>
      match j with
      | .arr js =>
          if js.length = ts.length then (runTuple env exc items ts target.components 0 loc segs st).map .tup
          else .reject exc segs (.sizeMismatch ts.length js.length) target st
      | _ => .reject exc segs .expectedArray target st
  | .variant ts, exc, target, loc, segs, st =>
      match alternativesD env own root j items fields ts 0 loc segs st with
      | .ub => .ub
      | .threw s e => .threw s e
      | .done true v st' => .done true v st'
      | .done false _ st' => .reject exc segs .noAlternative target st'
  | .cls c, exc, target, loc, segs, st =>
      match j with
      | .obj _ => (runMembersD env exc fields loc segs (own c) (env.members c) target.members true st).map .obj
      | _ => .reject exc segs .expectedObject target st
  | .uptr t, exc, target, loc, segs, st =>
      match nodeD env own root j items fields t exc (env.ctor t) loc segs st with
      | .ub => .ub
      | .threw s e => .threw s e
      | .done true v st' => .done true (.uptr v) st'
      | .done false _ st' => .done false target st'
  | .sptr t, exc, target, loc, segs, st =>
      match refMember j with
      | some r => readRef env root t r target st
      | none =>
          match nodeD env own root j items fields t exc (env.ctor t) loc segs { st with next := st.next + 1 } with
          | .ub => .ub
          | .threw s e => .threw s e
          | .done false v st' => .done false (.sptr st.next v) st'
          | .done true v st' => .done true (.sptr st.next v) (st'.put loc (st.next, t, v))

/-- The alternatives of a variant (`alternatives`; deserialize_variant.hpp:18, 31-42). -/
def alternativesD (env : Env) (own : Nat → Nat) (root j : Json) (items : List DesFn) (fields : List (Str × DesFn)) :
    List Ty → Nat → Loc → List Seg → DState → DRes Val
  | [], _, _, _, st => .done false .nullptr st
  | t :: ts, i, loc, segs, st =>
      match nodeD env own root j items fields t false (env.fresh t) loc segs st with
      | .ub => .ub
      | .threw s e => .threw s e
      | .done true v st' => .done true (.alt i v) st'
      | .done false _ st' => alternativesD env own root j items fields ts (i + 1) loc segs st'
end

mutual
/-- `deserialize<Exception>(json, obj, context)` (`deser`; deserialize.hpp:21-26). -/
def deserD (env : Env) (own : Nat → Nat) (root : Json) : Json → DesFn
  | .null => fun exc t => nodeD env own root .null [] [] t exc
  | .bool b => fun exc t => nodeD env own root (.bool b) [] [] t exc
  | .num n => fun exc t => nodeD env own root (.num n) [] [] t exc
  | .str s => fun exc t => nodeD env own root (.str s) [] [] t exc
  | .arr js => fun exc t => nodeD env own root (.arr js) (deserItemsD env own root js) [] t exc
  | .obj ms => fun exc t => nodeD env own root (.obj ms) [] (deserFieldsD env own root ms) t exc

/-- The readers of the elements of an array. -/
def deserItemsD (env : Env) (own : Nat → Nat) (root : Json) : List Json → List DesFn
  | [] => []
  | j :: js => deserD env own root j :: deserItemsD env own root js

/-- The readers of the members of an object. -/
def deserFieldsD (env : Env) (own : Nat → Nat) (root : Json) : List (Str × Json) → List (Str × DesFn)
  | [] => []
  | (k, j) :: ms => (k, deserD env own root j) :: deserFieldsD env own root ms
end

/-- `bool deserialize(rapidjson::Document& doc, T& obj)` (`deserializeBool`; deserialize.hpp:31-41). -/
def deserializeBoolD (env : Env) (own : Nat → Nat) (t : Ty) (root : Json) (target : Val) (next : Nat) : Option (Bool × Val) :=
  match deserD env own root root false t target [] [] ⟨[], next⟩ with
  | .ub => none
  | .threw _ _ => none
  | .done ok v _ => some (ok, v)

/-- `T deserialize(rapidjson::Document& doc)` (`deserializeThrow`; deserialize.hpp:46-59). -/
def deserializeThrowD (env : Env) (own : Nat → Nat) (t : Ty) (root : Json) (next : Nat) : Thrown :=
  match deserD env own root root true t (env.fresh t) [] [] ⟨[], next⟩ with
  | .ub => .ub
  | .threw segs e => .threw (pathStr segs) e
  | .done _ v _ => .returned v

/-! ## Writing -/

mutual
/-- `serialize(obj, writer, context)` (`wr`; write.hpp:23-28 and the same places as there). -/
def wrD (env : Env) (own : Nat → Nat) : Val → Ty → List Seg → STab → WRes
  | .prim p, .prim k, _, σ =>
      match serPrim env k p with
      | .ub => .ub
      | .fail => .done σ false []
      | .ok j => .done σ true (events j)
  | .seq vs, .vec t, segs, σ =>
      ((wrItemsD env own vs (List.replicate vs.length t) 0 segs σ).before [.startArr]).close .endArr
  | .tup vs, .arr n t, segs, σ =>
      if vs.length = n then ((wrItemsD env own vs (List.replicate n t) 0 segs σ).before [.startArr]).close .endArr
      else .ub
  | .tup vs, .tuple ts, segs, σ => ((wrItemsD env own vs ts 0 segs σ).before [.startArr]).close .endArr
  | .set vs, .set t, segs, σ => ((wrSetD env own vs t segs σ).before [.startArr]).close .endArr
  | .map kvs, .map ordered t, segs, σ =>
      ((writeEntries (iterate env ordered segs (wrValsD env own kvs t)) segs σ).before [.startObj]).close .endObj
  | .dict kvs, .dict t, segs, σ =>
      ((writeEntries (wrValsD env own kvs t) segs σ).before [.startObj]).close .endObj
  | .alt i v, .variant ts, segs, σ =>
      match ts[i]? with
      | some t => wrD env own v t segs σ
      | none => .ub
  | .obj vs, .cls c, segs, σ => ((wrMembersD env own (own c) vs (env.members c) segs σ).before [.startObj]).close .endObj
  | .uptr v, .uptr t, segs, σ => wrD env own v t segs σ
  | .sptr a v, .sptr t, segs, σ =>
      match σ.get a with
      | some s => .done σ true [.startObj, .key (lit "$ref"), .str (pathStr s), .endObj]
      | none =>
          match wrD env own v t segs σ with
          | .ub => .ub
          | .done σ' false es => .done σ' false es
          | .done σ' true es => .done (σ'.put a segs) true es
  | _, _, _, _ => .ub

/-- Elements with an index segment each (`wrItems`; write_vector.hpp:18-24, write_array.hpp:18-24, write_tuple.hpp:26-43). -/
def wrItemsD (env : Env) (own : Nat → Nat) : List Val → List Ty → Nat → List Seg → STab → WRes
  | [], [], _, _, σ => .done σ true []
  | v :: vs, t :: ts, k, segs, σ =>
      match wrD env own v t (.index k :: segs) σ with
      | .ub => .ub
      | .done σ' false es => .done σ' false es
      | .done σ' true es => (wrItemsD env own vs ts (k + 1) segs σ').before es
  | _, _, _, _, _ => .ub

/-- Elements of a set (`wrSet`; write_set.hpp:18-24). -/
def wrSetD (env : Env) (own : Nat → Nat) : List Val → Ty → List Seg → STab → WRes
  | [], _, _, σ => .done σ true []
  | v :: vs, t, segs, σ =>
      match wrD env own v t segs σ with
      | .ub => .ub
      | .done σ' false es => .done σ' false es
      | .done σ' true es => (wrSetD env own vs t segs σ').before es

/-- The writers of the values of a map (`wrVals`; write_map.hpp:19-26). -/
def wrValsD (env : Env) (own : Nat → Nat) : List (Str × Val) → Ty → List (Str × WriteFn)
  | [], _ => []
  | (k, v) :: kvs, t => (k, wrD env own v t) :: wrValsD env own kvs t

/-- `persist` with a `JsonObjectWriter` (`wrMembers`; write_object.hpp:21-69), when the first `left` members change the `result` of the original:
after the failure of a later member the copy skips the remaining members, but the original still has `result = true`. -/
def wrMembersD (env : Env) (own : Nat → Nat) (left : Nat) : List Val → List Member → List Seg → STab → WRes
  | [], [], _, σ => .done σ true []
  | v :: vs, m :: ms, segs, σ =>
      match m.kind, v with
      | .optional, .absent => wrMembersD env own (left - 1) vs ms segs σ
      | .optional, .present w =>
          (match wrD env own w m.ty (Seg.name m.name :: segs) σ with
          | .ub => .ub
          | .done σ' false es => .done σ' (decide (left = 0)) (.key m.name :: es)
          | .done σ' true es => (wrMembersD env own (left - 1) vs ms segs σ').before (.key m.name :: es))
      | .optional, _ => .ub
      | _, v =>
          (match wrD env own v m.ty (Seg.name m.name :: segs) σ with
          | .ub => .ub
          | .done σ' false es => .done σ' (decide (left = 0)) (.key m.name :: es)
          | .done σ' true es => (wrMembersD env own (left - 1) vs ms segs σ').before (.key m.name :: es))
  | _, _, _, _ => .ub
end

/-- `write_to_string(obj, str)` (`writeToString`; write.hpp:41-53). -/
def writeToStringD (env : Env) (own : Nat → Nat) (t : Ty) (v : Val) (before : List Event) : Option (Bool × List Event) :=
  match wrD env own v t [] [] with
  | .ub => none
  | .done _ true es => some (true, es)
  | .done _ false _ => some (false, before)

/-! ## Equations -/

theorem deserItemsD_eq (env : Env) (own : Nat → Nat) (root : Json) (js : List Json) : deserItemsD env own root js = js.map (deserD env own root) := by
  induction js with
  | nil => simp [deserItemsD]
  | cons j js ih => simp [deserItemsD, ih]

theorem deserFieldsD_eq (env : Env) (own : Nat → Nat) (root : Json) (ms : List (Str × Json)) :
    deserFieldsD env own root ms = ms.map fun p => (p.1, deserD env own root p.2) := by
  induction ms with
  | nil => simp [deserFieldsD]
  | cons p ms ih => cases p; simp [deserFieldsD, ih]

theorem deserD_node (env : Env) (own : Nat → Nat) (root j : Json) (exc : Bool) (t : Ty) :
    deserD env own root j exc t =
      nodeD env own root j (j.items.map (deserD env own root)) (j.fields.map fun p => (p.1, deserD env own root p.2)) t exc := by
  cases j <;> simp [deserD, Json.items, Json.fields, deserItemsD_eq, deserFieldsD_eq]

section
variable (env : Env) (own : Nat → Nat) (root j : Json) (exc : Bool) (target : Val) (loc : Loc) (segs : List Seg) (st : DState)

theorem deserD_prim (p : Prim) : deserD env own root j exc (.prim p) target loc segs st =
    match desPrim env p j with
    | .ub => .ub
    | .reject e => .reject exc segs e (spoil p j target) st
    | .ok pv => .done true (.prim pv) st := by
  rw [deserD_node, nodeD]

theorem deserD_vec (t : Ty) : deserD env own root j exc (.vec t) target loc segs st =
    match j with
    | .arr js => (runSame env t exc (js.map (deserD env own root)) 0 loc segs st).map .seq
    | _ => .reject exc segs .expectedArray target st := by
  rw [deserD_node]; cases j <;> simp [nodeD, Json.items]

theorem deserD_arr (n : Nat) (t : Ty) : deserD env own root j exc (.arr n t) target loc segs st =
    match j with
    | .arr js =>
        if js.length = n then
          match runSame env t exc (js.map (deserD env own root)) 0 loc segs st with
          | .ub => .ub
          | .threw s e => .threw s e
          | .done true vs st' => .done true (.tup vs) st'
          | .done false _ st' => .done false target st'
        else .reject exc segs (.sizeMismatch n js.length) target st
    | _ => .reject exc segs .expectedArray target st := by
  rw [deserD_node]; cases j <;> simp [nodeD, Json.items]

theorem deserD_set (t : Ty) : deserD env own root j exc (.set t) target loc segs st =
    match j with
    | .arr js => (runSame env t exc (js.map (deserD env own root)) 0 loc segs st).map fun vs => .set (vs.foldl (fun s v => setInsert env.less v s) [])
    | _ => .reject exc segs .expectedArray target st := by
  rw [deserD_node]; cases j <;> simp [nodeD, Json.items]

theorem deserD_map (o : Bool) (t : Ty) : deserD env own root j exc (.map o t) target loc segs st =
    match j with
    | .obj ms => (runEntries env t exc (ms.map fun p => (p.1, deserD env own root p.2)) 0 loc segs st).map
        fun kvs => .map (kvs.foldl (fun s p => mapAssign p.1 p.2 s) [])
    | _ => .reject exc segs .expectedObject target st := by
  rw [deserD_node]; cases j <;> simp [nodeD, Json.fields]

theorem deserD_dict (t : Ty) : deserD env own root j exc (.dict t) target loc segs st =
    match j with
    | .arr js => (runSame env (.tuple [.prim .str, t]) exc (js.map (deserD env own root)) 0 loc segs st).map fun vs => .dict (vs.map dictEntry)
    | _ => .reject exc segs .expectedArray target st := by
  rw [deserD_node]; cases j <;> simp [nodeD, Json.items]

theorem deserD_tuple (ts : List Ty) : deserD env own root j exc (.tuple ts) target loc segs st =
    match j with
    | .arr js =>
        if js.length = ts.length then (runTuple env exc (js.map (deserD env own root)) ts target.components 0 loc segs st).map .tup
        else .reject exc segs (.sizeMismatch ts.length js.length) target st
    | _ => .reject exc segs .expectedArray target st := by
  rw [deserD_node]; cases j <;> simp [nodeD, Json.items]

theorem deserD_uptr (t : Ty) : deserD env own root j exc (.uptr t) target loc segs st =
    match deserD env own root j exc t (env.ctor t) loc segs st with
    | .ub => .ub
    | .threw s e => .threw s e
    | .done true v st' => .done true (.uptr v) st'
    | .done false _ st' => .done false target st' := by
  rw [deserD_node, nodeD, deserD_node]

theorem deserD_sptr (t : Ty) : deserD env own root j exc (.sptr t) target loc segs st =
    match refMember j with
    | some r => readRef env root t r target st
    | none =>
        match deserD env own root j exc t (env.ctor t) loc segs { st with next := st.next + 1 } with
        | .ub => .ub
        | .threw s e => .threw s e
        | .done false v st' => .done false (.sptr st.next v) st'
        | .done true v st' => .done true (.sptr st.next v) (st'.put loc (st.next, t, v)) := by
  rw [deserD_node, nodeD, deserD_node]

/-- The alternatives of a variant in terms of `deserD`. -/
def tryAllD (env : Env) (own : Nat → Nat) (root j : Json) : List Ty → Nat → Loc → List Seg → DState → DRes Val
  | [], _, _, _, st => .done false .nullptr st
  | t :: ts, i, loc, segs, st =>
      match deserD env own root j false t (env.fresh t) loc segs st with
      | .ub => .ub
      | .threw s e => .threw s e
      | .done true v st' => .done true (.alt i v) st'
      | .done false _ st' => tryAllD env own root j ts (i + 1) loc segs st'

theorem alternativesD_eq (ts : List Ty) (i : Nat) :
    alternativesD env own root j (j.items.map (deserD env own root)) (j.fields.map fun p => (p.1, deserD env own root p.2)) ts i loc segs st =
      tryAllD env own root j ts i loc segs st := by
  induction ts generalizing i st with
  | nil => simp [alternativesD, tryAllD]
  | cons t ts ih =>
    rw [alternativesD, tryAllD, deserD_node]
    simp only [ih]

theorem deserD_variant (ts : List Ty) : deserD env own root j exc (.variant ts) target loc segs st =
    match tryAllD env own root j ts 0 loc segs st with
    | .ub => .ub
    | .threw s e => .threw s e
    | .done true v st' => .done true v st'
    | .done false _ st' => .reject exc segs .noAlternative target st' := by
  rw [deserD_node, nodeD, alternativesD_eq]

theorem deserD_cls (c : Nat) : deserD env own root j exc (.cls c) target loc segs st =
    match j with
    | .obj ms => (runMembersD env exc (ms.map fun p => (p.1, deserD env own root p.2)) loc segs (own c) (env.members c) target.members true st).map .obj
    | _ => .reject exc segs .expectedObject target st := by
  rw [deserD_node]; cases j <;> simp [nodeD, Json.fields]

end

/-! ## Types without derived classes -/

/-- No class in the type has a base class: all members are handled by the original. -/
def Baseless (env : Env) (own : Nat → Nat) (t : Ty) : Prop := ∀ c, Within env t (.cls c) → (env.members c).length ≤ own c

theorem Baseless.inner {env : Env} {own : Nat → Nat} {t t' : Ty} (h : Baseless env own t) (hi : Inner env t t') : Baseless env own t' :=
  fun c hc => h c (.of_inner hi hc)

theorem runMembersD_all (env : Env) (exc : Bool) (fs : List (Str × DesFn)) (loc : Loc) (segs : List Seg) (own : Nat) (ms : List Member) (ho : ms.length ≤ own)
    (targets : List Val) (res : Bool) (st : DState) : runMembersD env exc fs loc segs own ms targets res st = runMembers env exc fs loc segs ms targets res st := by
  induction ms generalizing own targets res st with
  | nil => simp [runMembersD, runMembers]
  | cons m ms ih =>
    simp only [List.length_cons] at ho
    have h0 : own ≠ 0 := by omega
    have ih := ih (own - 1) (by omega)
    simp only [runMembersD, runMembers, if_neg h0, ih]
    cases findMember m.name fs with
    | none => cases m.kind <;> rfl
    | some r =>
      obtain ⟨i, f⟩ := r
      simp only
      cases f exc m.ty (if m.kind = .optional then env.fresh m.ty else targets.headD (env.fresh m.ty)) (i :: loc) (Seg.name (cstr m.name) :: segs) st <;> rfl

section congr
variable (env : Env) (exc : Bool)

theorem runSame_congr (F G : Json → DesFn) (t : Ty) (js : List Json) (h : ∀ j ∈ js, F j exc t = G j exc t) (k : Nat) (loc : Loc) (segs : List Seg) (st : DState) :
    runSame env t exc (js.map F) k loc segs st = runSame env t exc (js.map G) k loc segs st := by
  induction js generalizing k st with
  | nil => rfl
  | cons j js ih =>
    simp only [List.map_cons, runSame, h j (by simp)]
    simp only [ih fun j hj => h j (by simp [hj])]

theorem runTuple_congr (F G : Json → DesFn) (ts : List Ty) (js : List Json) (h : ∀ j ∈ js, ∀ t ∈ ts, F j exc t = G j exc t) (targets : List Val) (k : Nat) (loc : Loc)
    (segs : List Seg) (st : DState) : runTuple env exc (js.map F) ts targets k loc segs st = runTuple env exc (js.map G) ts targets k loc segs st := by
  induction js generalizing ts targets k st with
  | nil => rfl
  | cons j js ih =>
    cases ts with
    | nil => rfl
    | cons t ts =>
      simp only [List.map_cons, runTuple, h j (by simp) t (by simp)]
      simp only [ih ts fun j hj t ht => h j (by simp [hj]) t (by simp [ht])]

theorem runEntries_congr (F G : Json → DesFn) (t : Ty) (ms : List (Str × Json)) (h : ∀ p ∈ ms, F p.2 exc t = G p.2 exc t) (k : Nat) (loc : Loc) (segs : List Seg) (st : DState) :
    runEntries env t exc (ms.map fun p => (p.1, F p.2)) k loc segs st = runEntries env t exc (ms.map fun p => (p.1, G p.2)) k loc segs st := by
  induction ms generalizing k st with
  | nil => rfl
  | cons p ms ih =>
    simp only [List.map_cons, runEntries, h p (by simp)]
    simp only [ih fun j hj => h j (by simp [hj])]

theorem runMembers_congr (F G : Json → DesFn) (fs : List (Str × Json)) (ms : List Member) (h : ∀ p ∈ fs, ∀ m ∈ ms, F p.2 exc m.ty = G p.2 exc m.ty) (loc : Loc)
    (segs : List Seg) (targets : List Val) (res : Bool) (st : DState) :
    runMembers env exc (fs.map fun p => (p.1, F p.2)) loc segs ms targets res st = runMembers env exc (fs.map fun p => (p.1, G p.2)) loc segs ms targets res st := by
  induction ms generalizing targets res st with
  | nil => rfl
  | cons m ms ih =>
    have ih := ih fun p hp m hm => h p hp m (by simp [hm])
    simp only [runMembers, findMember_map, ih]
    cases hf : findMember m.name fs with
    | none => rfl
    | some r =>
      obtain ⟨i, j⟩ := r
      simp only [Option.map_some]
      rw [h (m.name, j) (findMember_mem hf) m (by simp)]

end congr

/-- For types without derived classes nothing changes. -/
theorem deserD_eq (env : Env) (own : Nat → Nat) (root : Json) : ∀ j t, Baseless env own t → ∀ exc, deserD env own root j exc t = deser env root j exc t := by
  refine lexInd fun j t ihj iht hb exc => ?_
  have hitem : ∀ js, j = .arr js → ∀ j' ∈ js, ∀ t', Inner env t t' → deserD env own root j' exc t' = deser env root j' exc t' := by
    intro js hj j' hj' t' hi
    subst hj
    exact ihj j' (size_item hj') t' (hb.inner hi) exc
  have hfield : ∀ ms, j = .obj ms → ∀ p ∈ ms, ∀ t', Inner env t t' → deserD env own root p.2 exc t' = deser env root p.2 exc t' := by
    intro ms hj p hp t' hi
    subst hj
    exact ihj p.2 (size_field hp) t' (hb.inner hi) exc
  funext target loc segs st
  cases t with
  | prim p => rw [deserD_prim, deser_prim]; cases desPrim env p j <;> rfl
  | vec t =>
    rw [deserD_vec, deser_vec]
    cases j with
    | arr js => simp only; rw [runSame_congr env exc _ _ _ _ fun j hj => hitem js rfl j hj _ (.vec _)]
    | _ => rfl
  | arr n t =>
    rw [deserD_arr, deser_arr]
    cases j with
    | arr js => simp only; rw [runSame_congr env exc _ _ _ _ fun j hj => hitem js rfl j hj _ (.arr _ _)]
                split <;> [(generalize runSame env t exc (js.map (deser env root)) 0 loc segs st = x; rcases x with _ | _ | ⟨_ | _, _, _⟩ <;> rfl); rfl]
    | _ => rfl
  | set t =>
    rw [deserD_set, deser_set]
    cases j with
    | arr js => simp only; rw [runSame_congr env exc _ _ _ _ fun j hj => hitem js rfl j hj _ (.set _)]
    | _ => rfl
  | map o t =>
    rw [deserD_map, deser_map]
    cases j with
    | obj ms => simp only; rw [runEntries_congr env exc _ _ _ _ fun p hp => hfield ms rfl p hp _ (.map _ _)]
    | _ => rfl
  | dict t =>
    rw [deserD_dict, deser_dict]
    cases j with
    | arr js => simp only; rw [runSame_congr env exc _ _ _ _ fun j hj => hitem js rfl j hj _ (.dict _)]
    | _ => rfl
  | tuple ts =>
    rw [deserD_tuple, deser_tuple]
    cases j with
    | arr js => simp only; rw [runTuple_congr env exc _ _ _ _ fun j hj t ht => hitem js rfl j hj _ (.tuple _ _ ht)]
    | _ => rfl
  | variant ts =>
    rw [deserD_variant, deser_variant]
    have h : ∀ us, (∀ u ∈ us, u ∈ ts) → ∀ i st, tryAllD env own root j us i loc segs st = tryAll env root j us i loc segs st := by
      intro us
      induction us with
      | nil => intro _ i st; rfl
      | cons u us ih =>
        intro hu i st
        have hm := hu u (by simp)
        simp only [tryAllD, tryAll]
        rw [iht u (size_alt hm) (hb.inner (.variant _ _ hm)) false]
        simp only [ih fun u hu' => hu u (by simp [hu'])]
        generalize deser env root j false u (env.fresh u) loc segs st = x
        rcases x with _ | _ | ⟨_ | _, _, _⟩ <;> rfl
    rw [h ts (fun _ h => h)]
    generalize tryAll env root j ts 0 loc segs st = x
    rcases x with _ | _ | ⟨_ | _, _, _⟩ <;> rfl
  | cls c =>
    rw [deserD_cls, deser_cls]
    cases j with
    | obj ms =>
      simp only
      rw [runMembersD_all _ _ _ _ _ _ _ (hb c .self), runMembers_congr env exc _ _ _ _ fun p hp m hm => hfield ms rfl p hp _ (.cls _ _ hm)]
    | _ => rfl
  | uptr t =>
    rw [deserD_uptr, deser_uptr, iht t (by simp) (hb.inner (.uptr _)) exc]
    generalize deser env root j exc t (env.ctor t) loc segs st = x
    rcases x with _ | _ | ⟨_ | _, _, _⟩ <;> rfl
  | sptr t =>
    rw [deserD_sptr, deser_sptr, iht t (by simp) (hb.inner (.sptr _)) exc]
    generalize deser env root j exc t (env.ctor t) loc segs { st with next := st.next + 1 } = x
    cases refMember j with
    | some r => rfl
    | none => rcases x with _ | _ | ⟨_ | _, _, _⟩ <;> rfl

/-! ## Reading with exceptions -/

/-- What a member of a derived class means for three readers: the throwing reader of derived classes, the one of classes with all members, and the
boolean reader of derived classes. -/
inductive Tri {α : Type} : DRes α → DRes α → DRes α → Prop
  | ub (y : DRes α) : Tri .ub .ub y
  | threw (s : List Seg) (e : Err) (y : DRes α) : Tri (.threw s e) (.threw s e) y
  | done (v : α) (st : DState) : Tri (.done true v st) (.done true v st) (.done true v st)

theorem Tri.map {α β : Type} {x x' y : DRes α} (h : Tri x x' y) (f : α → β) : Tri (x.map f) (x'.map f) (y.map f) := by
  cases h <;> constructor

theorem Tri.reject {α : Type} (segs : List Seg) (e : Err) (a : α) (st : DState) (y : DRes α) : Tri (.reject true segs e a st) (.reject true segs e a st) y :=
  .threw _ _ _

/-- Variants are not about derived classes. -/
def Careful (env : Env) (own : Nat → Nat) (t : Ty) : Prop := ∀ ts, Within env t (.variant ts) → Baseless env own (.variant ts)

theorem Careful.inner {env : Env} {own : Nat → Nat} {t t' : Ty} (h : Careful env own t) (hi : Inner env t t') : Careful env own t' :=
  fun ts hts => h ts (.of_inner hi hts)

section
variable (env : Env) (own : Nat → Nat) (root : Json)

/-- The three readers on a node. -/
def TriAt (j : Json) (t : Ty) : Prop := ∀ target loc segs st,
  Tri (deserD env own root j true t target loc segs st) (deser env root j true t target loc segs st) (deserD env own root j false t target loc segs st)

theorem runSame_tri (t : Ty) (js : List Json) (h : ∀ j ∈ js, TriAt env own root j t) (k : Nat) (loc : Loc) (segs : List Seg) (st : DState) :
    Tri (runSame env t true (js.map (deserD env own root)) k loc segs st) (runSame env t true (js.map (deser env root)) k loc segs st)
      (runSame env t false (js.map (deserD env own root)) k loc segs st) := by
  induction js generalizing k st with
  | nil => exact .done _ _
  | cons j js ih =>
    have h1 := h j (by simp) (env.fresh t) (k :: loc) (.index k :: segs) st
    simp only [List.map_cons, runSame]
    revert h1
    generalize deserD env own root j true t (env.fresh t) (k :: loc) (.index k :: segs) st = x
    generalize deser env root j true t (env.fresh t) (k :: loc) (.index k :: segs) st = x'
    generalize deserD env own root j false t (env.fresh t) (k :: loc) (.index k :: segs) st = y
    intro h1
    cases h1 with
    | ub => exact .ub _
    | threw => exact .threw _ _ _
    | done => exact (ih (fun j hj => h j (by simp [hj])) _ _).map _

theorem runTuple_tri (ts : List Ty) (js : List Json) (h : ∀ j ∈ js, ∀ t ∈ ts, TriAt env own root j t) (targets : List Val) (k : Nat) (loc : Loc) (segs : List Seg)
    (st : DState) : Tri (runTuple env true (js.map (deserD env own root)) ts targets k loc segs st) (runTuple env true (js.map (deser env root)) ts targets k loc segs st)
      (runTuple env false (js.map (deserD env own root)) ts targets k loc segs st) := by
  induction js generalizing ts targets k st with
  | nil => exact .done _ _
  | cons j js ih =>
    cases ts with
    | nil => exact .done _ _
    | cons t ts =>
      have h1 := h j (by simp) t (by simp) (targets.headD (env.fresh t)) (k :: loc) (.index k :: segs) st
      simp only [List.map_cons, runTuple]
      revert h1
      generalize deserD env own root j true t (targets.headD (env.fresh t)) (k :: loc) (.index k :: segs) st = x
      generalize deser env root j true t (targets.headD (env.fresh t)) (k :: loc) (.index k :: segs) st = x'
      generalize deserD env own root j false t (targets.headD (env.fresh t)) (k :: loc) (.index k :: segs) st = y
      intro h1
      cases h1 with
      | ub => exact .ub _
      | threw => exact .threw _ _ _
      | done => exact (ih ts (fun j hj t ht => h j (by simp [hj]) t (by simp [ht])) _ _ _).map _

theorem runEntries_tri (t : Ty) (ms : List (Str × Json)) (h : ∀ p ∈ ms, TriAt env own root p.2 t) (k : Nat) (loc : Loc) (segs : List Seg) (st : DState) :
    Tri (runEntries env t true (ms.map fun p => (p.1, deserD env own root p.2)) k loc segs st) (runEntries env t true (ms.map fun p => (p.1, deser env root p.2)) k loc segs st)
      (runEntries env t false (ms.map fun p => (p.1, deserD env own root p.2)) k loc segs st) := by
  induction ms generalizing k st with
  | nil => exact .done _ _
  | cons p ms ih =>
    have h1 := h p (by simp) (env.fresh t) (k :: loc) (Seg.name (cstr p.1) :: segs) st
    simp only [List.map_cons, runEntries]
    revert h1
    generalize deserD env own root p.2 true t (env.fresh t) (k :: loc) (Seg.name (cstr p.1) :: segs) st = x
    generalize deser env root p.2 true t (env.fresh t) (k :: loc) (Seg.name (cstr p.1) :: segs) st = x'
    generalize deserD env own root p.2 false t (env.fresh t) (k :: loc) (Seg.name (cstr p.1) :: segs) st = y
    intro h1
    cases h1 with
    | ub => exact .ub _
    | threw => exact .threw _ _ _
    | done => exact (ih (fun p hp => h p (by simp [hp])) _ _).map _

theorem runMembers_tri (fs : List (Str × Json)) (ms : List Member) (h : ∀ p ∈ fs, ∀ m ∈ ms, TriAt env own root p.2 m.ty) (loc : Loc) (segs : List Seg) (left : Nat)
    (targets : List Val) (st : DState) :
    Tri (runMembersD env true (fs.map fun p => (p.1, deserD env own root p.2)) loc segs left ms targets true st)
      (runMembers env true (fs.map fun p => (p.1, deser env root p.2)) loc segs ms targets true st)
      (runMembersD env false (fs.map fun p => (p.1, deserD env own root p.2)) loc segs left ms targets true st) := by
  induction ms generalizing left targets st with
  | nil => exact .done _ _
  | cons m ms ih =>
    have ih := ih fun p hp m hm => h p hp m (by simp [hm])
    simp only [runMembersD, runMembers, findMember_map]
    cases hf : findMember m.name fs with
    | none =>
      simp only [Option.map_none]
      cases hk : m.kind with
      | required => exact .threw _ _ _
      | optional => exact (ih _ _ _).map _
      | default => exact (ih _ _ _).map _
    | some r =>
      obtain ⟨i, j⟩ := r
      simp only [Option.map_some]
      have h1 := h (m.name, j) (findMember_mem hf) m (by simp) (if m.kind = .optional then env.fresh m.ty else targets.headD (env.fresh m.ty)) (i :: loc)
        (Seg.name (cstr m.name) :: segs) st
      revert h1
      simp only
      generalize deserD env own root j true m.ty (if m.kind = .optional then env.fresh m.ty else targets.headD (env.fresh m.ty)) (i :: loc) (Seg.name (cstr m.name) :: segs) st = x
      generalize deser env root j true m.ty (if m.kind = .optional then env.fresh m.ty else targets.headD (env.fresh m.ty)) (i :: loc) (Seg.name (cstr m.name) :: segs) st = x'
      generalize deserD env own root j false m.ty (if m.kind = .optional then env.fresh m.ty else targets.headD (env.fresh m.ty)) (i :: loc) (Seg.name (cstr m.name) :: segs) st = y
      intro h1
      cases h1 with
      | ub => exact .ub _
      | threw => exact .threw _ _ _
      | done v st' =>
        simp only [ite_self]
        exact (ih _ _ _).map _

/-- Without references, and without derived classes in variants: the throwing reader reads derived classes like classes with all members, and what it
returns is also accepted by the boolean reader. -/
theorem deserD_tri : ∀ j t, NoKeys [lit "$ref"] j → Careful env own t → TriAt env own root j t := by
  refine lexInd fun j t ihj iht hk hc target loc segs st => ?_
  have hitem : ∀ js, j = .arr js → ∀ j' ∈ js, ∀ t', Inner env t t' → TriAt env own root j' t' := by
    intro js hj j' hj' t' hi
    subst hj
    exact ihj j' (size_item hj') t' (noKeys_item hk hj') (hc.inner hi)
  have hfield : ∀ ms, j = .obj ms → ∀ p ∈ ms, ∀ t', Inner env t t' → TriAt env own root p.2 t' := by
    intro ms hj p hp t' hi
    subst hj
    exact ihj p.2 (size_field hp) t' (noKeys_field hk hp).2 (hc.inner hi)
  cases t with
  | prim p =>
    simp only [deserD_prim, deser_prim]
    cases desPrim env p j with
    | ub => exact .ub _
    | reject => exact .reject _ _ _ _ _
    | ok => exact .done _ _
  | vec t =>
    simp only [deserD_vec, deser_vec]
    cases j with
    | arr js => exact (runSame_tri env own root _ _ (fun j hj => hitem js rfl j hj _ (.vec _)) _ _ _ _).map _
    | _ => exact .reject _ _ _ _ _
  | arr n t =>
    simp only [deserD_arr, deser_arr]
    cases j with
    | arr js =>
      by_cases hn : js.length = n
      · simp only [if_pos hn]
        have h1 := runSame_tri env own root _ _ (fun j hj => hitem js rfl j hj _ (.arr _ _)) 0 loc segs st
        revert h1
        generalize runSame env t true (js.map (deserD env own root)) 0 loc segs st = x
        generalize runSame env t true (js.map (deser env root)) 0 loc segs st = x'
        generalize runSame env t false (js.map (deserD env own root)) 0 loc segs st = y
        intro h1
        cases h1 with
        | ub => exact .ub _
        | threw => exact .threw _ _ _
        | done => exact .done _ _
      · simp only [if_neg hn]
        exact .reject _ _ _ _ _
    | _ => exact .reject _ _ _ _ _
  | set t =>
    simp only [deserD_set, deser_set]
    cases j with
    | arr js => exact (runSame_tri env own root _ _ (fun j hj => hitem js rfl j hj _ (.set _)) _ _ _ _).map _
    | _ => exact .reject _ _ _ _ _
  | map o t =>
    simp only [deserD_map, deser_map]
    cases j with
    | obj ms => exact (runEntries_tri env own root _ _ (fun p hp => hfield ms rfl p hp _ (.map _ _)) _ _ _ _).map _
    | _ => exact .reject _ _ _ _ _
  | dict t =>
    simp only [deserD_dict, deser_dict]
    cases j with
    | arr js => exact (runSame_tri env own root _ _ (fun j hj => hitem js rfl j hj _ (.dict _)) _ _ _ _).map _
    | _ => exact .reject _ _ _ _ _
  | tuple ts =>
    simp only [deserD_tuple, deser_tuple]
    cases j with
    | arr js =>
      by_cases hn : js.length = ts.length
      · simp only [if_pos hn]
        exact (runTuple_tri env own root _ _ (fun j hj t ht => hitem js rfl j hj _ (.tuple _ _ ht)) _ _ _ _ _).map _
      · simp only [if_neg hn]
        exact .reject _ _ _ _ _
    | _ => exact .reject _ _ _ _ _
  | variant ts =>
    have hb := hc ts .self
    rw [deserD_eq env own root j _ hb, deserD_eq env own root j _ hb, deser_variant, deser_variant]
    generalize tryAll env root j ts 0 loc segs st = x
    rcases x with _ | _ | ⟨_ | _, _, _⟩
    · exact .ub _
    · exact .threw _ _ _
    · exact .reject _ _ _ _ _
    · exact .done _ _
  | cls c =>
    simp only [deserD_cls, deser_cls]
    cases j with
    | obj ms => exact (runMembers_tri env own root _ _ (fun p hp m hm => hfield ms rfl p hp _ (.cls _ _ hm)) _ _ _ _ _).map _
    | _ => exact .reject _ _ _ _ _
  | uptr t =>
    simp only [deserD_uptr, deser_uptr]
    have h1 := iht t (by simp) hk (hc.inner (.uptr _)) (env.ctor t) loc segs st
    revert h1
    generalize deserD env own root j true t (env.ctor t) loc segs st = x
    generalize deser env root j true t (env.ctor t) loc segs st = x'
    generalize deserD env own root j false t (env.ctor t) loc segs st = y
    intro h1
    cases h1 with
    | ub => exact .ub _
    | threw => exact .threw _ _ _
    | done => exact .done _ _
  | sptr t =>
    simp only [deserD_sptr, deser_sptr, noKeys_ref hk]
    have h1 := iht t (by simp) hk (hc.inner (.sptr _)) (env.ctor t) loc segs { st with next := st.next + 1 }
    revert h1
    generalize deserD env own root j true t (env.ctor t) loc segs { st with next := st.next + 1 } = x
    generalize deser env root j true t (env.ctor t) loc segs { st with next := st.next + 1 } = x'
    generalize deserD env own root j false t (env.ctor t) loc segs { st with next := st.next + 1 } = y
    intro h1
    cases h1 with
    | ub => exact .ub _
    | threw => exact .threw _ _ _
    | done => exact .done _ _

end

end Verif.Core
