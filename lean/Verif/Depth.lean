import Verif.Cost
import Verif.Utf8

/-!
# How deep reading and writing recurse

`depth` counts, beside `deser`, how many calls of `deserialize<Exception>(json, obj, context)` are active at the same time (each of them has a frame on
the C++ stack, and so have the calls between them), `sdepth` does it for `serialize(obj, json, context)` beside `ser`. What happens next depends on
what has been read or written, so they ask `deser` and `ser` for it; they follow them line by line. Resolving a reference
(`rapidjson::Pointer::Get`) is a loop and adds no level.
-/

namespace Verif.Core

/-! ## Reading -/

/-- Depth of reading some node: `Exception`, type, target, place, context. -/
abbrev DepthFn := Bool → Ty → Val → Loc → List Seg → DState → Nat

/-- Depth of the loops over array elements (`runSame`; deserialize_vector.hpp:23-31, deserialize_set.hpp:23-31, deserialize_array.hpp:25-34). -/
def depthSame (env : Env) (root : Json) (t : Ty) (exc : Bool) : List (Json × DepthFn) → Nat → Loc → List Seg → DState → Nat
  | [], _, _, _, _ => 0
  | (j, f) :: fs, k, loc, segs, st =>
      Nat.max (f exc t (env.fresh t) (k :: loc) (.index k :: segs) st)
      (match deser env root j exc t (env.fresh t) (k :: loc) (.index k :: segs) st with
      | .done true _ st' => depthSame env root t exc fs (k + 1) loc segs st'
      | _ => 0)

/-- Depth of `deserialize_elements` (`runTuple`; deserialize_tuple.hpp:27-42). -/
def depthTuple (env : Env) (root : Json) (exc : Bool) : List (Json × DepthFn) → List Ty → List Val → Nat → Loc → List Seg → DState → Nat
  | (j, f) :: fs, t :: ts, targets, k, loc, segs, st =>
      Nat.max (f exc t (targets.headD (env.fresh t)) (k :: loc) (.index k :: segs) st)
      (match deser env root j exc t (targets.headD (env.fresh t)) (k :: loc) (.index k :: segs) st with
      | .done true _ st' => depthTuple env root exc fs ts targets.tail (k + 1) loc segs st'
      | _ => 0)
  | _, _, _, _, _, _, _ => 0

/-- Depth of the loop of deserialize_map.hpp:24-31 (`runEntries`). -/
def depthEntries (env : Env) (root : Json) (t : Ty) (exc : Bool) : List (Str × Json × DepthFn) → Nat → Loc → List Seg → DState → Nat
  | [], _, _, _, _ => 0
  | (key, j, f) :: fs, k, loc, segs, st =>
      Nat.max (f exc t (env.fresh t) (k :: loc) (Seg.name (cstr key) :: segs) st)
      (match deser env root j exc t (env.fresh t) (k :: loc) (Seg.name (cstr key) :: segs) st with
      | .done true _ st' => depthEntries env root t exc fs (k + 1) loc segs st'
      | _ => 0)

/-- Depth of `persist` with a `JsonObjectDeserializer` (`runMembers`; deserialize_object.hpp:31-82): all members also after a failure, unless an
exception is thrown. -/
def depthMembers (env : Env) (root : Json) (exc : Bool) (fs : List (Str × Json × DepthFn)) (loc : Loc) (segs : List Seg) :
    List Member → List Val → DState → Nat
  | [], _, _ => 0
  | m :: ms, targets, st =>
      let target := targets.headD (env.fresh m.ty)
      match findMember m.name fs with
      | some (i, j, f) =>
          Nat.max (f exc m.ty (if m.kind = .optional then env.fresh m.ty else target) (i :: loc) (Seg.name (cstr m.name) :: segs) st)
          (match deser env root j exc m.ty (if m.kind = .optional then env.fresh m.ty else target) (i :: loc) (Seg.name (cstr m.name) :: segs) st with
          | .done _ _ st' => depthMembers env root exc fs loc segs ms targets.tail st'
          | _ => 0)
      | none => if m.kind = .required ∧ exc = true then 0 else depthMembers env root exc fs loc segs ms targets.tail st

mutual
/-- Depth of `JsonDeserializer<Exception, T>::operator()` on the node `j` (`node`; deserialize.hpp:21-26 and the same places as there). -/
def depthNode (env : Env) (root j : Json) (items : List (Json × DepthFn)) (fields : List (Str × Json × DepthFn)) : Ty → Bool → Val → Loc → List Seg → DState → Nat
  | .prim _, _, _, _, _, _ => 1
  | .vec t, exc, _, loc, segs, st => 1 + depthSame env root t exc items 0 loc segs st
  | .arr n t, exc, _, loc, segs, st => 1 + if items.length = n then depthSame env root t exc items 0 loc segs st else 0
  | .set t, exc, _, loc, segs, st => 1 + depthSame env root t exc items 0 loc segs st
  | .map _ t, exc, _, loc, segs, st => 1 + depthEntries env root t exc fields 0 loc segs st
  | .dict t, exc, _, loc, segs, st => 1 + depthSame env root (.tuple [.prim .str, t]) exc items 0 loc segs st
  | .tuple ts, exc, target, loc, segs, st => 1 + if items.length = ts.length then depthTuple env root exc items ts target.components 0 loc segs st else 0
  | .variant ts, _, _, loc, segs, st => 1 + depthAlternatives env root j items fields ts loc segs st
  | .cls c, exc, target, loc, segs, st => 1 +
      match j with
      | .obj _ => depthMembers env root exc fields loc segs (env.members c) target.members st
      | _ => 0
  | .uptr t, exc, _, loc, segs, st => 1 + depthNode env root j items fields t exc (env.ctor t) loc segs st
  | .sptr t, exc, _, loc, segs, st => 1 +
      match refMember j with
      | some _ => 0
      | none => depthNode env root j items fields t exc (env.ctor t) loc segs { st with next := st.next + 1 }

/-- Depth of `(... || deserialize_variant<Ts>(json, value))` (`alternatives`; deserialize_variant.hpp:18, 31-42): up to the first alternative that
accepts. -/
def depthAlternatives (env : Env) (root j : Json) (items : List (Json × DepthFn)) (fields : List (Str × Json × DepthFn)) : List Ty → Loc → List Seg → DState → Nat
  | [], _, _, _ => 0
  | t :: ts, loc, segs, st =>
      Nat.max (depthNode env root j items fields t false (env.fresh t) loc segs st)
      (match deser env root j false t (env.fresh t) loc segs st with
      | .done false _ st' => depthAlternatives env root j items fields ts loc segs st'
      | _ => 0)
end

mutual
/-- Depth of `deserialize<Exception>(json, obj, context)` for the node `j` (`deser`; deserialize.hpp:21-26). -/
def depth (env : Env) (root : Json) : Json → DepthFn
  | .null => fun exc t => depthNode env root .null [] [] t exc
  | .bool b => fun exc t => depthNode env root (.bool b) [] [] t exc
  | .num n => fun exc t => depthNode env root (.num n) [] [] t exc
  | .str s => fun exc t => depthNode env root (.str s) [] [] t exc
  | .arr js => fun exc t => depthNode env root (.arr js) (depthItems env root js) [] t exc
  | .obj ms => fun exc t => depthNode env root (.obj ms) [] (depthFields env root ms) t exc

/-- The depths for the elements of an array. -/
def depthItems (env : Env) (root : Json) : List Json → List (Json × DepthFn)
  | [] => []
  | j :: js => (j, depth env root j) :: depthItems env root js

/-- The depths for the members of an object. -/
def depthFields (env : Env) (root : Json) : List (Str × Json) → List (Str × Json × DepthFn)
  | [] => []
  | (k, j) :: ms => (k, j, depth env root j) :: depthFields env root ms
end

/-- Depth of `bool deserialize(rapidjson::Document& doc, T& obj)` (deserialize.hpp:31-41). -/
def depthBool (env : Env) (t : Ty) (root : Json) (target : Val) (next : Nat) : Nat := depth env root root false t target [] [] ⟨[], next⟩

/-- Depth of `T deserialize(rapidjson::Document& doc)` (deserialize.hpp:46-59). -/
def depthThrow (env : Env) (t : Ty) (root : Json) (next : Nat) : Nat := depth env root root true t (env.fresh t) [] [] ⟨[], next⟩

/-! ## Writing -/

/-- Depth of writing some value: path, table of shared objects. -/
abbrev SDepthFn := List Seg → STab → Nat

/-- Depth of the loop over the entries of a map (`serEntries`; serialize_map.hpp:20-29). -/
def sdepthEntries : List (Str × SDepthFn × SerFn) → List Seg → STab → Nat
  | [], _, _ => 0
  | (k, f, g) :: rest, segs, σ =>
      Nat.max (f (Seg.name k :: segs) σ)
      (match g (Seg.name k :: segs) σ with
      | .done σ' (some _) => sdepthEntries rest segs σ'
      | _ => 0)

mutual
/-- Depth of `serialize(obj, json, context)` (`ser`; serialize.hpp:23-28 and the same places as there). -/
def sdepth (env : Env) : Val → Ty → List Seg → STab → Nat
  | .seq vs, .vec t, segs, σ => 1 + sdepthItems env vs (List.replicate vs.length t) 0 segs σ
  | .tup vs, .arr n t, segs, σ => 1 + sdepthItems env vs (List.replicate n t) 0 segs σ
  | .tup vs, .tuple ts, segs, σ => 1 + sdepthItems env vs ts 0 segs σ
  | .set vs, .set t, segs, σ => 1 + sdepthSet env vs t segs σ
  | .map kvs, .map ordered t, segs, σ => 1 + sdepthEntries (iterate env ordered segs (sdepthVals env kvs t)) segs σ
  | .dict kvs, .dict t, segs, σ => 1 + sdepthEntries (sdepthVals env kvs t) segs σ
  | .alt i v, .variant ts, segs, σ => 1 +
      match ts[i]? with
      | some t => sdepth env v t segs σ
      | none => 0
  | .obj vs, .cls c, segs, σ => 1 + sdepthMembers env vs (env.members c) segs σ
  | .uptr v, .uptr t, segs, σ => 1 + sdepth env v t segs σ
  | .sptr a v, .sptr t, segs, σ => 1 +
      match σ.get a with
      | some _ => 0
      | none => sdepth env v t segs σ
  | _, _, _, _ => 1

/-- Depth of the loops over elements (`serItems`; serialize_vector.hpp:19-28, serialize_array.hpp:19-28, serialize_tuple.hpp:26-44). -/
def sdepthItems (env : Env) : List Val → List Ty → Nat → List Seg → STab → Nat
  | v :: vs, t :: ts, k, segs, σ =>
      Nat.max (sdepth env v t (.index k :: segs) σ)
      (match ser env v t (.index k :: segs) σ with
      | .done σ' (some _) => sdepthItems env vs ts (k + 1) segs σ'
      | _ => 0)
  | _, _, _, _, _ => 0

/-- Depth of the loop of serialize_set.hpp:19-28 (`serSet`). -/
def sdepthSet (env : Env) : List Val → Ty → List Seg → STab → Nat
  | [], _, _, _ => 0
  | v :: vs, t, segs, σ =>
      Nat.max (sdepth env v t segs σ)
      (match ser env v t segs σ with
      | .done σ' (some _) => sdepthSet env vs t segs σ'
      | _ => 0)

/-- The depths for the values of a map (`serVals`). -/
def sdepthVals (env : Env) : List (Str × Val) → Ty → List (Str × SDepthFn × SerFn)
  | [], _ => []
  | (k, v) :: kvs, t => (k, sdepth env v t, ser env v t) :: sdepthVals env kvs t

/-- Depth of `persist` with a `JsonObjectSerializer` (`serMembers`; serialize_object.hpp:20-72). -/
def sdepthMembers (env : Env) : List Val → List Member → List Seg → STab → Nat
  | v :: vs, m :: ms, segs, σ =>
      match m.kind, v with
      | .optional, .absent => sdepthMembers env vs ms segs σ
      | .optional, .present w =>
          Nat.max (sdepth env w m.ty (Seg.name m.name :: segs) σ)
          (match ser env w m.ty (Seg.name m.name :: segs) σ with
          | .done σ' _ => sdepthMembers env vs ms segs σ'
          | _ => 0)
      | .optional, _ => 0
      | _, v =>
          Nat.max (sdepth env v m.ty (Seg.name m.name :: segs) σ)
          (match ser env v m.ty (Seg.name m.name :: segs) σ with
          | .done σ' _ => sdepthMembers env vs ms segs σ'
          | _ => 0)
  | _, _, _, _ => 0
end

/-- Depth of `serialize_to_document` (serialize.hpp:33-52). -/
def depthDocument (env : Env) (t : Ty) (v : Val) : Nat := sdepth env v t [] []

/-! ## Specification -/

/-- Types nest at most `n` levels: a recursive class does so for no `n` (specification). -/
def Nested (env : Env) : Nat → Ty → Prop
  | 0, _ => False
  | n + 1, t => ∀ t', Inner env t t' → Nested env n t'

mutual
/-- How many readers work on the same node one inside the other: pointers pass it on, variants to each of their alternatives (specification). -/
def links : Ty → Nat
  | .variant ts => 1 + linksAll ts
  | .uptr t => 1 + links t
  | .sptr t => 1 + links t
  | _ => 1

/-- The same for alternatives. -/
def linksAll : List Ty → Nat
  | [] => 0
  | t :: ts => Nat.max (links t) (linksAll ts)
end

/-- `n` steps lead from a node read as a type to a component of a component (specification). -/
inductive Nesting (env : Env) : Nat → Ty → Json → Loc → Prop
  | here (t : Ty) (j : Json) (loc : Loc) : Nesting env 0 t j loc
  | step (n : Nat) (t : Ty) (j : Json) (loc : Loc) (t' : Ty) (j' : Json) (loc' : Loc) : ChildAt env t j loc t' j' loc' → Nesting env n t' j' loc' →
      Nesting env (n + 1) t j loc

mutual
/-- Levels of a value, with the objects that pointers point to (specification). -/
def levels : Val → Nat
  | .seq vs => 1 + levelsAll vs
  | .tup vs => 1 + levelsAll vs
  | .set vs => 1 + levelsAll vs
  | .obj vs => 1 + levelsAll vs
  | .map kvs => 1 + levelsVals kvs
  | .dict kvs => 1 + levelsVals kvs
  | .alt _ v => 1 + levels v
  | .uptr v => 1 + levels v
  | .sptr _ v => 1 + levels v
  | .present v => levels v
  | _ => 1

/-- The same for components. -/
def levelsAll : List Val → Nat
  | [] => 0
  | v :: vs => Nat.max (levels v) (levelsAll vs)

/-- The same for the values of a map. -/
def levelsVals : List (Str × Val) → Nat
  | [] => 0
  | (_, v) :: kvs => Nat.max (levels v) (levelsVals kvs)
end

/-! ## Upper bound for reading -/

theorem depthItems_eq (env : Env) (root : Json) (js : List Json) : depthItems env root js = js.map fun j => (j, depth env root j) := by
  induction js with
  | nil => simp [depthItems]
  | cons j js ih => simp [depthItems, ih]

theorem depthFields_eq (env : Env) (root : Json) (ms : List (Str × Json)) : depthFields env root ms = ms.map fun p => (p.1, p.2, depth env root p.2) := by
  induction ms with
  | nil => simp [depthFields]
  | cons p ms ih => cases p; simp [depthFields, ih]

theorem depth_node (env : Env) (root j : Json) (exc : Bool) (t : Ty) :
    depth env root j exc t =
      depthNode env root j (j.items.map fun j => (j, depth env root j)) (j.fields.map fun p => (p.1, p.2, depth env root p.2)) t exc := by
  cases j <;> simp [depth, Json.items, Json.fields, depthItems_eq, depthFields_eq]

theorem find_depth (env : Env) (root : Json) (name : Str) (ms : List (Str × Json)) :
    findMember name (ms.map fun p => (p.1, p.2, depth env root p.2)) = (findMember name ms).map fun r => (r.1, r.2, depth env root r.2) := by
  induction ms with
  | nil => rfl
  | cons p ms ih =>
    obtain ⟨k, j⟩ := p
    simp only [List.map_cons, findMember]
    split
    · rfl
    · rw [ih]
      cases findMember name ms <;> rfl

/-- Reading never goes deeper than `n` levels below this node. -/
def DeepAt (env : Env) (root : Json) (n : Nat) (j : Json) (t : Ty) : Prop := ∀ exc target loc segs st, depth env root j exc t target loc segs st ≤ n

section
variable {env : Env} {root : Json} {n : Nat}

theorem depthSame_le (t : Ty) (exc : Bool) (js : List Json) (h : ∀ j ∈ js, DeepAt env root n j t) (k : Nat)
    (loc : Loc) (segs : List Seg) (st : DState) : depthSame env root t exc (js.map fun j => (j, depth env root j)) k loc segs st ≤ n := by
  induction js generalizing k st with
  | nil => simp [depthSame]
  | cons j js ih =>
    simp only [List.map_cons, depthSame]
    refine Nat.max_le.2 ⟨h j (by simp) _ _ _ _ _, ?_⟩
    split
    · exact ih (fun j hj => h j (by simp [hj])) _ _
    · exact Nat.zero_le _

theorem depthTuple_le (exc : Bool) (js : List Json) (ts : List Ty) (h : ∀ (i : Nat) (t : Ty) (j : Json), ts[i]? = some t → js[i]? = some j → DeepAt env root n j t) (targets : List Val) (k : Nat)
    (loc : Loc) (segs : List Seg) (st : DState) : depthTuple env root exc (js.map fun j => (j, depth env root j)) ts targets k loc segs st ≤ n := by
  induction js generalizing ts targets k st with
  | nil => simp [depthTuple]
  | cons j js ih =>
    cases ts with
    | nil => simp [depthTuple]
    | cons t ts =>
      simp only [List.map_cons, depthTuple]
      refine Nat.max_le.2 ⟨h 0 t j rfl rfl _ _ _ _ _, ?_⟩
      split
      · exact ih ts (fun i t j h1 h2 => h (i + 1) t j h1 h2) _ _ _
      · exact Nat.zero_le _

theorem depthEntries_le (t : Ty) (exc : Bool) (ms : List (Str × Json)) (h : ∀ p ∈ ms, DeepAt env root n p.2 t) (k : Nat)
    (loc : Loc) (segs : List Seg) (st : DState) : depthEntries env root t exc (ms.map fun p => (p.1, p.2, depth env root p.2)) k loc segs st ≤ n := by
  induction ms generalizing k st with
  | nil => simp [depthEntries]
  | cons p ms ih =>
    simp only [List.map_cons, depthEntries]
    refine Nat.max_le.2 ⟨h p (by simp) _ _ _ _ _, ?_⟩
    split
    · exact ih (fun j hj => h j (by simp [hj])) _ _
    · exact Nat.zero_le _

theorem depthMembers_le (exc : Bool) (ms : List (Str × Json)) (loc : Loc) (segs : List Seg) (mems : List Member)
    (h : ∀ m ∈ mems, ∀ i j, findMember m.name ms = some (i, j) → DeepAt env root n j m.ty) (targets : List Val) (st : DState) :
    depthMembers env root exc (ms.map fun p => (p.1, p.2, depth env root p.2)) loc segs mems targets st ≤ n := by
  induction mems generalizing targets st with
  | nil => simp [depthMembers]
  | cons m mems ih =>
    have ih := ih fun m hm => h m (by simp [hm])
    simp only [depthMembers, find_depth]
    cases hf : findMember m.name ms with
    | none =>
      simp only [Option.map]
      split
      · exact Nat.zero_le _
      · exact ih _ _
    | some r =>
      obtain ⟨i, j⟩ := r
      simp only [Option.map]
      refine Nat.max_le.2 ⟨h m (by simp) i j hf _ _ _ _ _, ?_⟩
      split
      · exact ih _ _
      · exact Nat.zero_le _

end

/-- If a measure of nodes and types decreases at each step to a component, then it bounds the depth. -/
theorem depth_measure (env : Env) (root : Json) (I : Nat → Json → Ty → Loc → Prop)
    (hI : ∀ n t j loc t' j' loc', I n j t loc → ChildAt env t j loc t' j' loc' → ∃ m, m < n ∧ I m j' t' loc') :
    ∀ j t, ∀ n loc, I n j t loc → DeepAt env root (n + 1) j t := by
  refine lexInd fun j t ihj iht n loc h => ?_
  have down : ∀ t' j' loc', ChildAt env t j loc t' j' loc' → sizeOf j' < sizeOf j → DeepAt env root n j' t' := by
    intro t' j' loc' hc hs exc target loc'' segs st
    obtain ⟨m, hm, h'⟩ := hI _ _ _ _ _ _ _ h hc
    exact Nat.le_trans (ihj j' hs t' m loc' h' exc target loc'' segs st) hm
  have same : ∀ t' loc', ChildAt env t j loc t' j loc' → sizeOf t' < sizeOf t → DeepAt env root n j t' := by
    intro t' loc' hc hs exc target loc'' segs st
    obtain ⟨m, hm, h'⟩ := hI _ _ _ _ _ _ _ h hc
    exact Nat.le_trans (iht t' hs m loc' h' exc target loc'' segs st) hm
  have items : ∀ t', (∀ js (i : Nat) j', j = .arr js → js[i]? = some j' → ChildAt env t j loc t' j' (i :: loc)) → ∀ j' ∈ j.items, DeepAt env root n j' t' := by
    intro t' hc j' hj'
    cases j with
    | arr js =>
      obtain ⟨i, hi⟩ := List.getElem?_of_mem hj'
      exact down t' j' _ (hc js i j' rfl hi) (size_item hj')
    | _ => simp [Json.items] at hj'
  intro exc target loc'' segs st
  rw [depth_node, Nat.add_comm]
  cases t with
  | prim p => simp only [depthNode]; omega
  | vec t =>
    simp only [depthNode]
    refine Nat.add_le_add_left (depthSame_le t exc _ (items t ?_) _ _ _ _) 1
    rintro js i j' rfl hi
    exact .vec t js i j' loc hi
  | arr k t =>
    simp only [depthNode]
    refine Nat.add_le_add_left ?_ 1
    split
    · refine depthSame_le t exc _ (items t ?_) _ _ _ _
      rintro js i j' rfl hi
      exact .arr k t js i j' loc hi
    · exact Nat.zero_le _
  | set t =>
    simp only [depthNode]
    refine Nat.add_le_add_left (depthSame_le t exc _ (items t ?_) _ _ _ _) 1
    rintro js i j' rfl hi
    exact .set t js i j' loc hi
  | dict t =>
    simp only [depthNode]
    refine Nat.add_le_add_left (depthSame_le _ exc _ (items _ ?_) _ _ _ _) 1
    rintro js i j' rfl hi
    exact .dict t js i j' loc hi
  | map o t =>
    simp only [depthNode]
    refine Nat.add_le_add_left (depthEntries_le t exc _ ?_ _ _ _ _) 1
    intro p hp
    cases j with
    | obj ms =>
      obtain ⟨i, hi⟩ := List.getElem?_of_mem hp
      exact down t p.2 _ (.map o t ms i p loc hi) (size_field hp)
    | _ => simp [Json.fields] at hp
  | tuple ts =>
    simp only [depthNode]
    refine Nat.add_le_add_left ?_ 1
    split
    · refine depthTuple_le exc _ ts ?_ _ _ _ _ _
      intro i t j' h1 h2
      cases j with
      | arr js => exact down t j' _ (.tuple ts js i t j' loc h1 h2) (size_item (List.mem_of_getElem? h2))
      | _ => simp [Json.items] at h2
    · exact Nat.zero_le _
  | cls c =>
    simp only [depthNode]
    refine Nat.add_le_add_left ?_ 1
    cases j with
    | obj ms => exact depthMembers_le exc ms _ _ _ (fun m hm i j' hf => down m.ty j' _ (.cls c ms m i j' loc hm hf) (size_field (findMember_mem hf))) _ _
    | _ => exact Nat.zero_le _
  | variant ts =>
    simp only [depthNode]
    refine Nat.add_le_add_left ?_ 1
    have hall : ∀ us, (∀ t' ∈ us, t' ∈ ts) → ∀ st, depthAlternatives env root j (j.items.map fun j => (j, depth env root j)) (j.fields.map fun p => (p.1, p.2, depth env root p.2)) us loc'' segs st ≤ n := by
      intro us
      induction us with
      | nil => intro _ st; simp [depthAlternatives]
      | cons t us ih =>
        intro hus st
        have ht := hus t (by simp)
        have h1 := same t loc (.variant ts j t loc ht) (size_alt ht) false (env.fresh t) loc'' segs st
        rw [depth_node] at h1
        simp only [depthAlternatives]
        refine Nat.max_le.2 ⟨h1, ?_⟩
        split
        · exact ih (fun t' ht' => hus t' (by simp [ht'])) _
        · exact Nat.zero_le _
    exact hall ts (fun _ h => h) st
  | uptr t =>
    simp only [depthNode]
    have h1 := same t loc (.uptr t j loc) (by simp +arith) exc (env.ctor t) loc'' segs st
    rw [depth_node] at h1
    exact Nat.add_le_add_left h1 1
  | sptr t =>
    simp only [depthNode]
    refine Nat.add_le_add_left ?_ 1
    cases hr : refMember j with
    | some r => exact Nat.zero_le _
    | none =>
      have h1 := same t loc (.sptr t j loc hr) (by simp +arith) exc (env.ctor t) loc'' segs { st with next := st.next + 1 }
      rwa [depth_node] at h1


theorem Nested.mono {env : Env} : ∀ {n : Nat} {t : Ty}, Nested env n t → 1 ≤ n
  | 0, _, h => h.elim
  | _ + 1, _, _ => Nat.le_add_left _ _

theorem ChildAt.inner_of {env : Env} {t t' : Ty} {j j' : Json} {loc loc' : Loc} (h : ChildAt env t j loc t' j' loc') : Inner env t t' := by
  cases h with
  | vec => exact .vec _
  | arr => exact .arr _ _
  | set => exact .set _
  | dict => exact .dict _
  | map => exact .map _ _
  | tuple _ _ _ _ _ _ h => exact .tuple _ _ (List.mem_of_getElem? h)
  | variant _ _ _ _ h => exact .variant _ _ h
  | cls _ _ _ _ _ _ h => exact .cls _ _ h
  | uptr => exact .uptr _
  | sptr => exact .sptr _

/-- Types that are not recursive: their nesting bounds the depth. -/
theorem depth_nested (env : Env) (root j : Json) (t : Ty) (n : Nat) (h : Nested env n t) : DeepAt env root n j t := by
  have := depth_measure env root (fun n _ t _ => Nested env (n + 1) t)
    (fun n t j loc t' j' loc' h hc => by
      have h' := h t' hc.inner_of
      cases n with
      | zero => exact h'.elim
      | succ n => exact ⟨n, Nat.lt_succ_self n, h'⟩) j t (n - 1) [] (by
        have := h.mono
        rwa [Nat.sub_add_cancel this])
  rwa [Nat.sub_add_cancel h.mono] at this

/-- The depth of reading is at most the number of nodes on a way from the root downwards. -/
theorem depth_nesting (env : Env) (root j : Json) (t : Ty) (loc : Loc) (n : Nat) (h : ∀ m, Nesting env m t j loc → m ≤ n) : DeepAt env root (n + 1) j t := by
  refine depth_measure env root (fun n j t loc => ∀ m, Nesting env m t j loc → m ≤ n) (fun n t j loc t' j' loc' h hc => ?_) j t n loc h
  cases n with
  | zero => exact absurd (h 1 (.step 0 _ _ _ _ _ _ hc (.here _ _ _))) (by omega)
  | succ n => exact ⟨n, Nat.lt_succ_self n, fun m hm => Nat.le_of_succ_le_succ (h _ (.step m _ _ _ _ _ _ hc hm))⟩

theorem links_pos (t : Ty) : 1 ≤ links t := by cases t <;> simp [links]

theorem linksAll_mem {t : Ty} {ts : List Ty} (h : t ∈ ts) : links t ≤ linksAll ts := by
  induction ts with
  | nil => simp at h
  | cons a ts ih =>
    rw [linksAll]
    rcases List.mem_cons.1 h with rfl | h
    · exact Nat.le_max_left _ _
    · exact Nat.le_trans (ih h) (Nat.le_max_right _ _)

theorem depthAll_mem {j : Json} {js : List Json} (h : j ∈ js) : j.depth ≤ Json.depthAll js := by
  induction js with
  | nil => simp at h
  | cons a js ih =>
    rw [Json.depthAll]
    rcases List.mem_cons.1 h with rfl | h
    · exact Nat.le_max_left _ _
    · exact Nat.le_trans (ih h) (Nat.le_max_right _ _)

theorem depthFields_mem {p : Str × Json} {ms : List (Str × Json)} (h : p ∈ ms) : p.2.depth ≤ Json.depthFields ms := by
  induction ms with
  | nil => simp at h
  | cons a ms ih =>
    obtain ⟨k, j⟩ := a
    rw [Json.depthFields]
    rcases List.mem_cons.1 h with rfl | h
    · exact Nat.le_max_left _ _
    · exact Nat.le_trans (ih h) (Nat.le_max_right _ _)

/-- At most `K` readers work on the same node, one inside the other. -/
def FewLinks (env : Env) (K : Nat) (t : Ty) : Prop := ∀ u, Within env t u → links u ≤ K

/-- A step to a component: either to an element or member, or to the same node with fewer pointers and variants around. -/
theorem ChildAt.descends {env : Env} {t t' : Ty} {j j' : Json} {loc loc' : Loc} (h : ChildAt env t j loc t' j' loc') : j'.depth < j.depth ∨ j' = j ∧ links t' < links t := by
  cases h with
  | vec _ _ _ _ _ h => have := depthAll_mem (List.mem_of_getElem? h); left; simp only [Json.depth]; omega
  | arr _ _ _ _ _ _ h => have := depthAll_mem (List.mem_of_getElem? h); left; simp only [Json.depth]; omega
  | set _ _ _ _ _ h => have := depthAll_mem (List.mem_of_getElem? h); left; simp only [Json.depth]; omega
  | dict _ _ _ _ _ h => have := depthAll_mem (List.mem_of_getElem? h); left; simp only [Json.depth]; omega
  | map _ _ _ _ _ _ h => have := depthFields_mem (List.mem_of_getElem? h); left; simp only [Json.depth]; omega
  | tuple _ _ _ _ _ _ _ h => have := depthAll_mem (List.mem_of_getElem? h); left; simp only [Json.depth]; omega
  | variant _ _ _ _ h => have := linksAll_mem h; right; simp only [links, true_and]; omega
  | cls _ _ _ _ _ _ _ h => have := depthFields_mem (findMember_mem h); left; simp only [Json.depth]; simp only at this; omega
  | uptr => right; simp only [links, true_and]; omega
  | sptr => right; simp only [links, true_and]; omega

/-- The depth of reading is at most the number of pointers and variants around a type, for each level of the document. -/
theorem depth_document (env : Env) (root j : Json) (t : Ty) (K : Nat) (h : FewLinks env K t) : DeepAt env root (K * (j.depth + 1)) j t := by
  have hpos := links_pos t
  have h0 := h t .self
  have := depth_measure env root (fun n j t _ => FewLinks env K t ∧ n + 1 = links t + K * j.depth)
    (fun n t j loc t' j' loc' ⟨hl, hn⟩ hc => by
      have hl' : FewLinks env K t' := fun u hu => hl u (.of_inner hc.inner_of hu)
      have h1 := links_pos t'
      refine ⟨links t' + K * j'.depth - 1, ?_, hl', by omega⟩
      have h2 := hl' t' .self
      have h3 := links_pos t
      rcases hc.descends with h | ⟨rfl, h⟩
      · have := Nat.mul_le_mul_left K h
        rw [Nat.mul_succ] at this
        omega
      · omega) j t (links t + K * j.depth - 1) [] ⟨h, by omega⟩
  intro exc target loc segs st
  refine Nat.le_trans (this exc target loc segs st) ?_
  rw [Nat.mul_succ]
  omega

/-! ## Lower bound for reading -/

/-- No variant occurs in the type. -/
def Variantless (env : Env) (t : Ty) : Prop := ∀ ts, ¬ Within env t (.variant ts)

/-- If the throwing variant reads the node, then it has read each component of it. -/
def FullAt (env : Env) (root j : Json) (t : Ty) : Prop :=
  ∀ target loc segs st ok v st', deser env root j true t target loc segs st = .done ok v st' →
    ok = true ∧ ∀ n loc', Nesting env n t j loc' → n + 1 ≤ depth env root j true t target loc segs st

section
variable {env : Env} {root : Json}

theorem runSame_full (t : Ty) (js : List Json) (h : ∀ j ∈ js, FullAt env root j t) (k : Nat) (loc : Loc) (segs : List Seg) (st : DState) (ok : Bool) (vs : List Val) (st' : DState)
    (hr : runSame env t true (js.map (deser env root)) k loc segs st = .done ok vs st') :
    ok = true ∧ ∀ (i : Nat) (j : Json) n loc', js[i]? = some j → Nesting env n t j loc' → n + 1 ≤ depthSame env root t true (js.map fun j => (j, depth env root j)) k loc segs st := by
  induction js generalizing k st vs with
  | nil => simp only [List.map, runSame] at hr; cases hr; exact ⟨rfl, fun i j n loc' hi => by simp at hi⟩
  | cons a js ih =>
    simp only [List.map_cons, runSame] at hr
    simp only [List.map_cons, depthSame]
    cases hd : deser env root a true t (env.fresh t) (k :: loc) (.index k :: segs) st with
    | ub => rw [hd] at hr; cases hr
    | threw => rw [hd] at hr; cases hr
    | done ok1 v1 st1 =>
      obtain ⟨rfl, h1⟩ := h a (by simp) _ _ _ _ _ _ _ hd
      rw [hd] at hr
      obtain ⟨vs', hr', -⟩ := DRes.map_done hr
      obtain ⟨hok, h2⟩ := ih (fun j hj => h j (by simp [hj])) _ _ _ hr'
      refine ⟨hok, fun i j n loc' hi hn => ?_⟩
      cases i with
      | zero => cases hi; exact Nat.le_trans (h1 n loc' hn) (Nat.le_max_left _ _)
      | succ i => exact Nat.le_trans (h2 i j n loc' hi hn) (Nat.le_max_right _ _)

theorem runEntries_full (t : Ty) (ms : List (Str × Json)) (h : ∀ p ∈ ms, FullAt env root p.2 t) (k : Nat) (loc : Loc) (segs : List Seg) (st : DState) (ok : Bool) (vs : List (Str × Val)) (st' : DState)
    (hr : runEntries env t true (ms.map fun p => (p.1, deser env root p.2)) k loc segs st = .done ok vs st') :
    ok = true ∧ ∀ (i : Nat) (p : Str × Json) n loc', ms[i]? = some p → Nesting env n t p.2 loc' → n + 1 ≤ depthEntries env root t true (ms.map fun p => (p.1, p.2, depth env root p.2)) k loc segs st := by
  induction ms generalizing k st vs with
  | nil => simp only [List.map, runEntries] at hr; cases hr; exact ⟨rfl, fun i j n loc' hi => by simp at hi⟩
  | cons a ms ih =>
    simp only [List.map_cons, runEntries] at hr
    simp only [List.map_cons, depthEntries]
    cases hd : deser env root a.2 true t (env.fresh t) (k :: loc) (Seg.name (cstr a.1) :: segs) st with
    | ub => rw [hd] at hr; cases hr
    | threw => rw [hd] at hr; cases hr
    | done ok1 v1 st1 =>
      obtain ⟨rfl, h1⟩ := h a (by simp) _ _ _ _ _ _ _ hd
      rw [hd] at hr
      obtain ⟨vs', hr', -⟩ := DRes.map_done hr
      obtain ⟨hok, h2⟩ := ih (fun j hj => h j (by simp [hj])) _ _ _ hr'
      refine ⟨hok, fun i j n loc' hi hn => ?_⟩
      cases i with
      | zero => cases hi; exact Nat.le_trans (h1 n loc' hn) (Nat.le_max_left _ _)
      | succ i => exact Nat.le_trans (h2 i j n loc' hi hn) (Nat.le_max_right _ _)

theorem runTuple_full (js : List Json) (ts : List Ty) (h : ∀ (i : Nat) (t : Ty) (j : Json), ts[i]? = some t → js[i]? = some j → FullAt env root j t) (targets : List Val) (k : Nat) (loc : Loc)
    (segs : List Seg) (st : DState) (ok : Bool) (vs : List Val) (st' : DState)
    (hr : runTuple env true (js.map (deser env root)) ts targets k loc segs st = .done ok vs st') :
    ok = true ∧ ∀ (i : Nat) (t : Ty) (j : Json) n loc', ts[i]? = some t → js[i]? = some j → Nesting env n t j loc' →
      n + 1 ≤ depthTuple env root true (js.map fun j => (j, depth env root j)) ts targets k loc segs st := by
  induction js generalizing ts targets k st vs with
  | nil => simp only [List.map, runTuple] at hr; cases hr; exact ⟨rfl, fun i t j n loc' _ hi => by simp at hi⟩
  | cons a js ih =>
    cases ts with
    | nil => simp only [List.map, runTuple] at hr; cases hr; exact ⟨rfl, fun i t j n loc' hi => by simp at hi⟩
    | cons u ts =>
      simp only [List.map_cons, runTuple] at hr
      simp only [List.map_cons, depthTuple]
      cases hd : deser env root a true u (targets.headD (env.fresh u)) (k :: loc) (.index k :: segs) st with
      | ub => rw [hd] at hr; cases hr
      | threw => rw [hd] at hr; cases hr
      | done ok1 v1 st1 =>
        obtain ⟨rfl, h1⟩ := h 0 u a rfl rfl _ _ _ _ _ _ _ hd
        rw [hd] at hr
        obtain ⟨vs', hr', -⟩ := DRes.map_done hr
        obtain ⟨hok, h2⟩ := ih ts (fun i t j h1 h2 => h (i + 1) t j h1 h2) _ _ _ _ hr'
        refine ⟨hok, fun i t j n loc' hi hj hn => ?_⟩
        cases i with
        | zero => cases hi; cases hj; exact Nat.le_trans (h1 n loc' hn) (Nat.le_max_left _ _)
        | succ i => exact Nat.le_trans (h2 i t j n loc' hi hj hn) (Nat.le_max_right _ _)

theorem runMembers_full (ms : List (Str × Json)) (loc : Loc) (segs : List Seg) (mems : List Member)
    (h : ∀ m ∈ mems, ∀ i j, findMember m.name ms = some (i, j) → FullAt env root j m.ty) (targets : List Val) (res : Bool) (hres : res = true) (st : DState) (ok : Bool) (vs : List Val) (st' : DState)
    (hr : runMembers env true (ms.map fun p => (p.1, deser env root p.2)) loc segs mems targets res st = .done ok vs st') :
    ok = true ∧ ∀ m ∈ mems, ∀ i j n loc', findMember m.name ms = some (i, j) → Nesting env n m.ty j loc' →
      n + 1 ≤ depthMembers env root true (ms.map fun p => (p.1, p.2, depth env root p.2)) loc segs mems targets st := by
  induction mems generalizing targets res st vs with
  | nil => simp only [runMembers] at hr; cases hr; exact ⟨hres, fun m hm => by simp at hm⟩
  | cons a mems ih =>
    have ih := ih fun m hm => h m (by simp [hm])
    simp only [runMembers, findMember_map] at hr
    simp only [depthMembers, find_depth]
    cases hf : findMember a.name ms with
    | none =>
      simp only [hf, Option.map] at hr ⊢
      have rest : ∀ (hk : a.kind ≠ .required) x, ((runMembers env true (ms.map fun p => (p.1, deser env root p.2)) loc segs mems targets.tail res st).map (x :: ·) = .done ok vs st') →
          ok = true ∧ ∀ m ∈ a :: mems, ∀ i j n loc', findMember m.name ms = some (i, j) → Nesting env n m.ty j loc' →
            n + 1 ≤ if a.kind = .required ∧ true = true then 0 else depthMembers env root true (ms.map fun p => (p.1, p.2, depth env root p.2)) loc segs mems targets.tail st := by
        intro hk x hr
        obtain ⟨vs', hr', -⟩ := DRes.map_done hr
        obtain ⟨hok, h2⟩ := ih _ _ hres _ _ hr'
        refine ⟨hok, fun m hm i j n loc' hi hn => ?_⟩
        rw [if_neg (fun h => hk h.1)]
        rcases List.mem_cons.1 hm with rfl | hm
        · rw [hf] at hi; cases hi
        · exact h2 m hm i j n loc' hi hn
      cases hk : a.kind with
      | required => rw [hk] at hr; cases hr
      | optional => rw [hk] at hr rest; exact rest (by simp) _ hr
      | default => rw [hk] at hr rest; exact rest (by simp) _ hr
    | some r =>
      obtain ⟨i0, j0⟩ := r
      simp only [hf, Option.map] at hr ⊢
      generalize hx : (if a.kind = .optional then env.fresh a.ty else targets.headD (env.fresh a.ty)) = x at hr ⊢
      cases hd : deser env root j0 true a.ty x (i0 :: loc) (Seg.name (cstr a.name) :: segs) st with
      | ub => rw [hd] at hr; cases hr
      | threw => rw [hd] at hr; cases hr
      | done ok1 v1 st1 =>
        obtain ⟨rfl, h1⟩ := h a (by simp) i0 j0 hf _ _ _ _ _ _ _ hd
        rw [hd] at hr
        obtain ⟨vs', hr', -⟩ := DRes.map_done hr
        obtain ⟨hok, h2⟩ := ih _ _ rfl _ _ hr'
        refine ⟨hok, fun m hm i j n loc' hi hn => ?_⟩
        rcases List.mem_cons.1 hm with rfl | hm
        · rw [hf] at hi; cases hi
          exact Nat.le_trans (h1 n loc' hn) (Nat.le_max_left _ _)
        · exact Nat.le_trans (h2 m hm i j n loc' hi hn) (Nat.le_max_right _ _)

end

theorem reject_true {segs : List Seg} {e : Err} {v : Val} {st : DState} {ok : Bool} {w : Val} {st' : DState} (h : DRes.reject true segs e v st = .done ok w st') : False := by
  simp [DRes.reject] at h

/-- A document without references that the throwing variant reads is read to its full depth. -/
theorem depth_full (env : Env) (root : Json) : ∀ j t, NoKeys [lit "$ref"] j → Variantless env t → FullAt env root j t := by
  refine lexInd fun j t ihj iht hk hv => ?_
  have hin : ∀ t', Inner env t t' → Variantless env t' := fun t' hi ts hw => hv ts (.of_inner hi hw)
  have items : ∀ js, j = .arr js → ∀ j' ∈ js, ∀ t', Inner env t t' → FullAt env root j' t' := by
    rintro js rfl j' hj' t' hi
    exact ihj j' (size_item hj') t' (noKeys_item hk hj') (hin t' hi)
  have fields : ∀ ms, j = .obj ms → ∀ p ∈ ms, ∀ t', Inner env t t' → FullAt env root p.2 t' := by
    rintro ms rfl p hp t' hi
    exact ihj p.2 (size_field hp) t' (noKeys_field hk hp).2 (hin t' hi)
  intro target loc segs st ok v st' hr
  rw [depth_node]
  cases t with
  | prim p =>
    rw [deser_prim] at hr
    refine ⟨?_, fun n loc' hn => ?_⟩
    · split at hr
      · cases hr
      · exact (reject_true hr).elim
      · cases hr; rfl
    · cases hn with
      | here => simp [depthNode]
      | step _ _ _ _ _ _ _ hc => cases hc
  | vec t =>
    rw [deser_vec] at hr
    cases j with
    | arr js =>
      obtain ⟨vs, hr', -⟩ := DRes.map_done hr
      obtain ⟨hok, h1⟩ := runSame_full t js (fun j' hj' => items js rfl j' hj' t (.vec t)) _ _ _ _ _ _ _ hr'
      refine ⟨hok, fun n loc' hn => ?_⟩
      simp only [depthNode, Json.items]
      cases hn with
      | here => omega
      | step n _ _ _ t' j' loc' hc hn =>
        cases hc with
        | vec _ _ i _ _ hi => have := h1 i j' n _ hi hn; omega
    | _ => exact (reject_true hr).elim
  | arr m t =>
    rw [deser_arr] at hr
    cases j with
    | arr js =>
      simp only at hr
      split at hr
      · rename_i hl
        cases hs : runSame env t true (js.map (deser env root)) 0 loc segs st with
        | ub => rw [hs] at hr; cases hr
        | threw => rw [hs] at hr; cases hr
        | done ok1 vs st1 =>
          obtain ⟨rfl, h1⟩ := runSame_full t js (fun j' hj' => items js rfl j' hj' t (.arr m t)) _ _ _ _ _ _ _ hs
          rw [hs] at hr
          cases hr
          refine ⟨rfl, fun n loc' hn => ?_⟩
          simp only [depthNode, Json.items, List.length_map, if_pos hl]
          cases hn with
          | here => omega
          | step n _ _ _ t' j' loc' hc hn =>
            cases hc with
            | arr _ _ _ i _ _ hi => have := h1 i j' n _ hi hn; omega
      · exact (reject_true hr).elim
    | _ => exact (reject_true hr).elim
  | set t =>
    rw [deser_set] at hr
    cases j with
    | arr js =>
      obtain ⟨vs, hr', -⟩ := DRes.map_done hr
      obtain ⟨hok, h1⟩ := runSame_full t js (fun j' hj' => items js rfl j' hj' t (.set t)) _ _ _ _ _ _ _ hr'
      refine ⟨hok, fun n loc' hn => ?_⟩
      simp only [depthNode, Json.items]
      cases hn with
      | here => omega
      | step n _ _ _ t' j' loc' hc hn =>
        cases hc with
        | set _ _ i _ _ hi => have := h1 i j' n _ hi hn; omega
    | _ => exact (reject_true hr).elim
  | dict t =>
    rw [deser_dict] at hr
    cases j with
    | arr js =>
      obtain ⟨vs, hr', -⟩ := DRes.map_done hr
      obtain ⟨hok, h1⟩ := runSame_full _ js (fun j' hj' => items js rfl j' hj' _ (.dict t)) _ _ _ _ _ _ _ hr'
      refine ⟨hok, fun n loc' hn => ?_⟩
      simp only [depthNode, Json.items]
      cases hn with
      | here => omega
      | step n _ _ _ t' j' loc' hc hn =>
        cases hc with
        | dict _ _ i _ _ hi => have := h1 i j' n _ hi hn; omega
    | _ => exact (reject_true hr).elim
  | map o t =>
    rw [deser_map] at hr
    cases j with
    | obj ms =>
      obtain ⟨vs, hr', -⟩ := DRes.map_done hr
      obtain ⟨hok, h1⟩ := runEntries_full t ms (fun p hp => fields ms rfl p hp t (.map o t)) _ _ _ _ _ _ _ hr'
      refine ⟨hok, fun n loc' hn => ?_⟩
      simp only [depthNode, Json.fields]
      cases hn with
      | here => omega
      | step n _ _ _ t' j' loc' hc hn =>
        cases hc with
        | map _ _ _ i p _ hi => have := h1 i p n _ hi hn; omega
    | _ => exact (reject_true hr).elim
  | tuple ts =>
    rw [deser_tuple] at hr
    cases j with
    | arr js =>
      simp only at hr
      split at hr
      · rename_i hl
        obtain ⟨vs, hr', -⟩ := DRes.map_done hr
        obtain ⟨hok, h1⟩ := runTuple_full js ts (fun i t j' h1 h2 => items js rfl j' (List.mem_of_getElem? h2) t (.tuple ts t (List.mem_of_getElem? h1))) _ _ _ _ _ _ _ _ hr'
        refine ⟨hok, fun n loc' hn => ?_⟩
        simp only [depthNode, Json.items, List.length_map, if_pos hl]
        cases hn with
        | here => omega
        | step n _ _ _ t' j' loc' hc hn =>
          cases hc with
          | tuple _ _ i _ _ _ hi hj => have := h1 i t' j' n _ hi hj hn; omega
      · exact (reject_true hr).elim
    | _ => exact (reject_true hr).elim
  | cls c =>
    rw [deser_cls] at hr
    cases j with
    | obj ms =>
      obtain ⟨vs, hr', -⟩ := DRes.map_done hr
      obtain ⟨hok, h1⟩ := runMembers_full ms loc segs _ (fun m hm i j' hf => fields ms rfl (m.name, j') (findMember_mem hf) m.ty (.cls c m hm)) _ _ rfl _ _ _ _ hr'
      refine ⟨hok, fun n loc' hn => ?_⟩
      simp only [depthNode, Json.fields]
      cases hn with
      | here => omega
      | step n _ _ _ t' j' loc' hc hn =>
        cases hc with
        | cls _ _ m i _ _ hm hf => have := h1 m hm i j' n _ hf hn; omega
    | _ => exact (reject_true hr).elim
  | variant ts => exact (hv ts .self).elim
  | uptr t =>
    rw [deser_uptr] at hr
    have hf := iht t (by simp +arith) hk (hin t (.uptr t))
    cases hd : deser env root j true t (env.ctor t) loc segs st with
    | ub => rw [hd] at hr; cases hr
    | threw => rw [hd] at hr; cases hr
    | done ok1 v1 st1 =>
      obtain ⟨rfl, h1⟩ := hf _ _ _ _ _ _ _ hd
      rw [hd] at hr
      cases hr
      refine ⟨rfl, fun n loc' hn => ?_⟩
      rw [depth_node] at h1
      simp only [depthNode]
      cases hn with
      | here => omega
      | step n _ _ _ t' j' loc' hc hn =>
        cases hc with
        | uptr => have := h1 n _ hn; omega
  | sptr t =>
    rw [deser_sptr, noKeys_ref hk] at hr
    have hf := iht t (by simp +arith) hk (hin t (.sptr t))
    cases hd : deser env root j true t (env.ctor t) loc segs { st with next := st.next + 1 } with
    | ub => simp only [hd] at hr; cases hr
    | threw => simp only [hd] at hr; cases hr
    | done ok1 v1 st1 =>
      obtain ⟨rfl, h1⟩ := hf _ _ _ _ _ _ _ hd
      simp only [hd] at hr
      cases hr
      refine ⟨rfl, fun n loc' hn => ?_⟩
      rw [depth_node] at h1
      simp only [depthNode, noKeys_ref hk]
      cases hn with
      | here => omega
      | step n _ _ _ t' j' loc' hc hn =>
        cases hc with
        | sptr => have := h1 n _ hn; omega

/-! ## Upper bound for writing -/

/-- Writing never goes deeper than `n` levels below this value. -/
def WriteDeep (env : Env) (n : Nat) (v : Val) (t : Ty) : Prop := ∀ segs σ, sdepth env v t segs σ ≤ n

section
variable {env : Env} {n : Nat}

theorem sdepthItems_le (vs : List Val) (ts : List Ty) (h : ∀ v ∈ vs, ∀ t ∈ ts, WriteDeep env n v t) (k : Nat) (segs : List Seg) (σ : STab) :
    sdepthItems env vs ts k segs σ ≤ n := by
  induction vs generalizing ts k σ with
  | nil => simp [sdepthItems]
  | cons v vs ih =>
    cases ts with
    | nil => simp [sdepthItems]
    | cons t ts =>
      simp only [sdepthItems]
      refine Nat.max_le.2 ⟨h v (by simp) t (by simp) _ _, ?_⟩
      split
      · exact ih ts (fun v hv t ht => h v (by simp [hv]) t (by simp [ht])) _ _
      · exact Nat.zero_le _

theorem sdepthSet_le (vs : List Val) (t : Ty) (h : ∀ v ∈ vs, WriteDeep env n v t) (segs : List Seg) (σ : STab) : sdepthSet env vs t segs σ ≤ n := by
  induction vs generalizing σ with
  | nil => simp [sdepthSet]
  | cons v vs ih =>
    simp only [sdepthSet]
    refine Nat.max_le.2 ⟨h v (by simp) _ _, ?_⟩
    split
    · exact ih (fun v hv => h v (by simp [hv])) _
    · exact Nat.zero_le _

theorem sdepthEntries_le (fs : List (Str × SDepthFn × SerFn)) (h : ∀ p ∈ fs, ∀ segs σ, p.2.1 segs σ ≤ n) (segs : List Seg) (σ : STab) : sdepthEntries fs segs σ ≤ n := by
  induction fs generalizing σ with
  | nil => simp [sdepthEntries]
  | cons p fs ih =>
    obtain ⟨k, f, g⟩ := p
    simp only [sdepthEntries]
    refine Nat.max_le.2 ⟨h _ (List.mem_cons_self ..) _ _, ?_⟩
    split
    · exact ih (fun p hp => h p (by simp [hp])) _
    · exact Nat.zero_le _

theorem sdepthVals_eq (env : Env) (kvs : List (Str × Val)) (t : Ty) : sdepthVals env kvs t = kvs.map fun p => (p.1, sdepth env p.2 t, ser env p.2 t) := by
  induction kvs with
  | nil => simp [sdepthVals]
  | cons p kvs ih => cases p; simp [sdepthVals, ih]

theorem sdepthVals_le (kvs : List (Str × Val)) (t : Ty) (h : ∀ p ∈ kvs, WriteDeep env n p.2 t) : ∀ p ∈ sdepthVals env kvs t, ∀ segs σ, p.2.1 segs σ ≤ n := by
  intro p hp
  rw [sdepthVals_eq] at hp
  obtain ⟨q, hq, rfl⟩ := List.mem_map.1 hp
  exact h q hq

theorem sdepthMembers_le (vs : List Val) (ms : List Member) (h : ∀ v, (v ∈ vs ∨ .present v ∈ vs) → ∀ m ∈ ms, WriteDeep env n v m.ty) (segs : List Seg) (σ : STab) :
    sdepthMembers env vs ms segs σ ≤ n := by
  induction vs generalizing ms σ with
  | nil => simp [sdepthMembers]
  | cons v vs ih =>
    cases ms with
    | nil => simp [sdepthMembers]
    | cons m ms =>
      have ih := fun σ => ih ms (fun v hv m hm => h v (by rcases hv with hv | hv <;> simp [hv]) m (by simp [hm])) σ
      have h1 := fun v hv => h v hv m (by simp)
      have step : ∀ w, (w = v ∨ .present w = v) → Nat.max (sdepth env w m.ty (Seg.name m.name :: segs) σ)
          (match ser env w m.ty (Seg.name m.name :: segs) σ with
          | .done σ' _ => sdepthMembers env vs ms segs σ'
          | _ => 0) ≤ n := by
        intro w hw
        refine Nat.max_le.2 ⟨h1 w (by rcases hw with rfl | rfl <;> simp) _ _, ?_⟩
        split
        · exact ih _
        · exact Nat.zero_le _
      rw [sdepthMembers.eq_def]
      simp only
      split
      · exact ih _
      · exact step _ (.inr rfl)
      · exact Nat.zero_le _
      · exact step _ (.inl rfl)

end

theorem levelsAll_mem {v : Val} {vs : List Val} (h : v ∈ vs) : levels v ≤ levelsAll vs := by
  induction vs with
  | nil => simp at h
  | cons a vs ih =>
    rw [levelsAll]
    rcases List.mem_cons.1 h with rfl | h
    · exact Nat.le_max_left _ _
    · exact Nat.le_trans (ih h) (Nat.le_max_right _ _)

theorem levelsVals_mem {p : Str × Val} {kvs : List (Str × Val)} (h : p ∈ kvs) : levels p.2 ≤ levelsVals kvs := by
  induction kvs with
  | nil => simp at h
  | cons a kvs ih =>
    obtain ⟨k, v⟩ := a
    rw [levelsVals]
    rcases List.mem_cons.1 h with rfl | h
    · exact Nat.le_max_left _ _
    · exact Nat.le_trans (ih h) (Nat.le_max_right _ _)

theorem levels_pos (v : Val) : 1 ≤ levels v := by
  induction v using Val.strong with
  | h v ih =>
    cases v with
    | present w => simp only [levels]; exact ih w (by simp +arith)
    | _ => simp [levels]

theorem Nested.le {env : Env} : ∀ {n m : Nat} {t : Ty}, Nested env n t → n ≤ m → Nested env m t
  | 0, _, _, h, _ => h.elim
  | n + 1, 0, _, _, hm => absurd hm (by omega)
  | n + 1, m + 1, _, h, hm => fun t' hi => (h t' hi).le (Nat.le_of_succ_le_succ hm)

/-- Neither the type nor the value has more levels. -/
def Shallow (env : Env) (n : Nat) (v : Val) (t : Ty) : Prop := Nested env n t ∨ levels v ≤ n

theorem Shallow.pos {env : Env} {n : Nat} {v : Val} {t : Ty} (h : Shallow env n v t) : 1 ≤ n := h.elim Nested.mono (Nat.le_trans (levels_pos v))

theorem Shallow.down {env : Env} {n : Nat} {v w : Val} {t t' : Ty} (h : Shallow env (n + 1) v t) (hi : Inner env t t') (hl : levels w + 1 ≤ levels v) : Shallow env n w t' :=
  h.imp (fun h => h t' hi) fun h => by omega

/-- The depth of writing is bounded by the nesting of the type and by the levels of the value. -/
theorem sdepth_le (env : Env) : ∀ v t n, Shallow env n v t → WriteDeep env n v t := by
  intro v
  induction v using Val.strong with
  | h v ih =>
    intro t n h segs σ
    have hpos := h.pos
    obtain ⟨n, rfl⟩ : ∃ m, n = m + 1 := ⟨n - 1, by omega⟩
    have all : ∀ vs, sizeOf vs < sizeOf v → levelsAll vs + 1 ≤ levels v → ∀ w ∈ vs, ∀ t', Inner env t t' → WriteDeep env n w t' := by
      intro vs hs hl w hw t' hi
      have := levelsAll_mem hw
      have := mem_size hw
      exact ih w (by omega) t' n (h.down hi (by omega))
    rw [sdepth.eq_def]
    split
    · rename_i vs t
      rw [Nat.add_comm]
      refine Nat.add_le_add_right (sdepthItems_le vs _ (fun w hw t' ht => ?_) _ _ _) 1
      rw [List.eq_of_mem_replicate ht]
      exact all vs (by simp +arith) (by simp only [levels]; omega) w hw t (.vec t)
    · rename_i vs k t
      rw [Nat.add_comm]
      refine Nat.add_le_add_right (sdepthItems_le vs _ (fun w hw t' ht => ?_) _ _ _) 1
      rw [List.eq_of_mem_replicate ht]
      exact all vs (by simp +arith) (by simp only [levels]; omega) w hw t (.arr k t)
    · rename_i vs ts
      rw [Nat.add_comm]
      refine Nat.add_le_add_right (sdepthItems_le vs _ (fun w hw t' ht => ?_) _ _ _) 1
      exact all vs (by simp +arith) (by simp only [levels]; omega) w hw t' (.tuple ts t' ht)
    · rename_i vs t
      rw [Nat.add_comm]
      refine Nat.add_le_add_right (sdepthSet_le vs _ (fun w hw => ?_) _ _) 1
      exact all vs (by simp +arith) (by simp only [levels]; omega) w hw t (.set t)
    · rename_i kvs o t
      rw [Nat.add_comm]
      refine Nat.add_le_add_right (sdepthEntries_le _ (fun p hp => ?_) _ _) 1
      refine sdepthVals_le kvs t (fun q hq => ?_) p (Text.iterate_mem env o segs _ p hp)
      have h1 := mem_size_kv hq
      have h2 := levelsVals_mem hq
      exact ih q.2 (by simp +arith; omega) t n (h.down (.map o t) (by simp only [levels]; omega))
    · rename_i kvs t
      rw [Nat.add_comm]
      refine Nat.add_le_add_right (sdepthEntries_le _ (sdepthVals_le kvs t fun q hq => ?_) _ _) 1
      have h1 := mem_size_kv hq
      have h2 := levelsVals_mem hq
      refine ih q.2 (by simp +arith; omega) t n (h.imp (fun h => ?_) fun h => by simp only [levels] at h; omega)
      cases n with
      | zero => exact (h _ (.dict t)).elim
      | succ n => exact (h _ (.dict t) t (.tuple _ t (by simp))).le (Nat.le_succ n)
    · rename_i i w ts
      rw [Nat.add_comm]
      refine Nat.add_le_add_right ?_ 1
      split
      · rename_i t ht
        exact ih w (by simp +arith) t n (h.down (.variant ts t (List.mem_of_getElem? ht)) (by simp only [levels]; omega)) _ _
      · exact Nat.zero_le _
    · rename_i vs c
      rw [Nat.add_comm]
      refine Nat.add_le_add_right (sdepthMembers_le vs _ (fun w hw m hm => ?_) _ _) 1
      rcases hw with hw | hw
      · exact all vs (by simp +arith) (by simp only [levels]; omega) w hw m.ty (.cls c m hm)
      · have h1 := levelsAll_mem hw
        have h2 := mem_size hw
        simp only [levels] at h1
        simp only [Val.present.sizeOf_spec] at h2
        exact ih w (by simp +arith; omega) m.ty n (h.down (.cls c m hm) (by simp only [levels]; omega))
    · rename_i w t
      rw [Nat.add_comm]
      exact Nat.add_le_add_right (ih w (by simp +arith) t n (h.down (.uptr t) (by simp only [levels]; omega)) _ _) 1
    · rename_i a w t
      rw [Nat.add_comm]
      refine Nat.add_le_add_right ?_ 1
      split
      · exact Nat.zero_le _
      · exact ih w (by simp +arith) t n (h.down (.sptr t) (by simp only [levels]; omega)) _ _
    · exact Nat.le_add_left _ _

end Verif.Core
