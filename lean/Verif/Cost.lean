import Verif.Evolve
import Verif.ParseSpec

/-!
# How much work reading is

`cost` counts, beside `deser`, the calls of `deserialize<Exception>(json, obj, context)`, the comparisons of keys in `FindMember` and the steps of
`rapidjson::Pointer::Get`. What happens next depends on what has been read, so `cost` asks `deser` for it; it follows `deser` line by line.
-/

namespace Verif.Core

/-- Comparisons of keys that `FindMember` makes (RapidJSON contract: from the first member on, up to the one that is found). -/
def compared {α : Type} (name : Str) : List (Str × α) → Nat
  | [] => 0
  | (k, _) :: rest => if k = name then 1 else 1 + compared name rest

/-- Steps and comparisons of keys of `rapidjson::Pointer::Get` (see `pointerGet`). -/
def resolved : Json → List Str → Nat
  | _, [] => 0
  | .obj ms, t :: ts =>
      1 + compared t ms +
      match findMember t ms with
      | none => 0
      | some (_, j) => resolved j ts
  | .arr xs, t :: ts =>
      1 +
      match tokenIndex t with
      | none => 0
      | some n =>
          match xs[n]? with
          | none => 0
          | some j => resolved j ts
  | _, _ :: _ => 1

/-- Work of reading some node: `Exception`, type, target, place, context. -/
abbrev CostFn := Bool → Ty → Val → Loc → List Seg → DState → Nat

/-- Work of the loops over array elements (`runSame`; deserialize_vector.hpp:23-31, deserialize_set.hpp:23-31, deserialize_array.hpp:25-34). -/
def costSame (env : Env) (root : Json) (t : Ty) (exc : Bool) : List (Json × CostFn) → Nat → Loc → List Seg → DState → Nat
  | [], _, _, _, _ => 0
  | (j, f) :: fs, k, loc, segs, st =>
      f exc t (env.fresh t) (k :: loc) (.index k :: segs) st +
      match deser env root j exc t (env.fresh t) (k :: loc) (.index k :: segs) st with
      | .done true _ st' => costSame env root t exc fs (k + 1) loc segs st'
      | _ => 0

/-- Work of `deserialize_elements` (`runTuple`; deserialize_tuple.hpp:27-42). -/
def costTuple (env : Env) (root : Json) (exc : Bool) : List (Json × CostFn) → List Ty → List Val → Nat → Loc → List Seg → DState → Nat
  | (j, f) :: fs, t :: ts, targets, k, loc, segs, st =>
      f exc t (targets.headD (env.fresh t)) (k :: loc) (.index k :: segs) st +
      match deser env root j exc t (targets.headD (env.fresh t)) (k :: loc) (.index k :: segs) st with
      | .done true _ st' => costTuple env root exc fs ts targets.tail (k + 1) loc segs st'
      | _ => 0
  | _, _, _, _, _, _, _ => 0

/-- Work of the loop of deserialize_map.hpp:24-31 (`runEntries`). -/
def costEntries (env : Env) (root : Json) (t : Ty) (exc : Bool) : List (Str × Json × CostFn) → Nat → Loc → List Seg → DState → Nat
  | [], _, _, _, _ => 0
  | (key, j, f) :: fs, k, loc, segs, st =>
      f exc t (env.fresh t) (k :: loc) (Seg.name (cstr key) :: segs) st +
      match deser env root j exc t (env.fresh t) (k :: loc) (Seg.name (cstr key) :: segs) st with
      | .done true _ st' => costEntries env root t exc fs (k + 1) loc segs st'
      | _ => 0

/-- Work of `persist` with a `JsonObjectDeserializer` (`runMembers`; deserialize_object.hpp:31-82): one `FindMember` for each member of the class,
and all members also after a failure, unless an exception is thrown. -/
def costMembers (env : Env) (root : Json) (exc : Bool) (fs : List (Str × Json × CostFn)) (loc : Loc) (segs : List Seg) :
    List Member → List Val → DState → Nat
  | [], _, _ => 0
  | m :: ms, targets, st =>
      let target := targets.headD (env.fresh m.ty)
      compared m.name fs +
      match findMember m.name fs with
      | some (i, j, f) =>
          f exc m.ty (if m.kind = .optional then env.fresh m.ty else target) (i :: loc) (Seg.name (cstr m.name) :: segs) st +
          (match deser env root j exc m.ty (if m.kind = .optional then env.fresh m.ty else target) (i :: loc) (Seg.name (cstr m.name) :: segs) st with
          | .done _ _ st' => costMembers env root exc fs loc segs ms targets.tail st'
          | _ => 0)
      | none => if m.kind = .required ∧ exc = true then 0 else costMembers env root exc fs loc segs ms targets.tail st

/-- Work of a reference (`readRef`; deserialize_pointer.hpp:43-55). -/
def costRef (env : Env) (root : Json) : Json → Nat
  | .str p =>
      match pointerTokens env p with
      | none => 0
      | some toks => resolved root toks
  | _ => 0

mutual
/-- Work of `JsonDeserializer<Exception, T>::operator()` on the node `j` (`node`; deserialize.hpp:21-26 and the same places as there). -/
def costNode (env : Env) (root j : Json) (items : List (Json × CostFn)) (fields : List (Str × Json × CostFn)) : Ty → Bool → Val → Loc → List Seg → DState → Nat
  | .prim _, _, _, _, _, _ => 1
  | .vec t, exc, _, loc, segs, st => 1 + costSame env root t exc items 0 loc segs st
  | .arr n t, exc, _, loc, segs, st => 1 + if items.length = n then costSame env root t exc items 0 loc segs st else 0
  | .set t, exc, _, loc, segs, st => 1 + costSame env root t exc items 0 loc segs st
  | .map _ t, exc, _, loc, segs, st => 1 + costEntries env root t exc fields 0 loc segs st
  | .dict t, exc, _, loc, segs, st => 1 + costSame env root (.tuple [.prim .str, t]) exc items 0 loc segs st
  | .tuple ts, exc, target, loc, segs, st => 1 + if items.length = ts.length then costTuple env root exc items ts target.components 0 loc segs st else 0
  | .variant ts, _, _, loc, segs, st => 1 + costAlternatives env root j items fields ts loc segs st
  | .cls c, exc, target, loc, segs, st => 1 +
      match j with
      | .obj _ => costMembers env root exc fields loc segs (env.members c) target.members st
      | _ => 0
  | .uptr t, exc, _, loc, segs, st => 1 + costNode env root j items fields t exc (env.ctor t) loc segs st
  | .sptr t, exc, _, loc, segs, st =>
      1 + compared (lit "$ref") fields +
      match refMember j with
      | some r => costRef env root r
      | none => costNode env root j items fields t exc (env.ctor t) loc segs { st with next := st.next + 1 }

/-- Work of `(... || deserialize_variant<Ts>(json, value))` (`alternatives`; deserialize_variant.hpp:18, 31-42): up to the first alternative that
accepts. -/
def costAlternatives (env : Env) (root j : Json) (items : List (Json × CostFn)) (fields : List (Str × Json × CostFn)) : List Ty → Loc → List Seg → DState → Nat
  | [], _, _, _ => 0
  | t :: ts, loc, segs, st =>
      costNode env root j items fields t false (env.fresh t) loc segs st +
      match deser env root j false t (env.fresh t) loc segs st with
      | .done false _ st' => costAlternatives env root j items fields ts loc segs st'
      | _ => 0
end

mutual
/-- Work of `deserialize<Exception>(json, obj, context)` for the node `j` (`deser`; deserialize.hpp:21-26). -/
def cost (env : Env) (root : Json) : Json → CostFn
  | .null => fun exc t => costNode env root .null [] [] t exc
  | .bool b => fun exc t => costNode env root (.bool b) [] [] t exc
  | .num n => fun exc t => costNode env root (.num n) [] [] t exc
  | .str s => fun exc t => costNode env root (.str s) [] [] t exc
  | .arr js => fun exc t => costNode env root (.arr js) (costItems env root js) [] t exc
  | .obj ms => fun exc t => costNode env root (.obj ms) [] (costFields env root ms) t exc

/-- The work for the elements of an array. -/
def costItems (env : Env) (root : Json) : List Json → List (Json × CostFn)
  | [] => []
  | j :: js => (j, cost env root j) :: costItems env root js

/-- The work for the members of an object. -/
def costFields (env : Env) (root : Json) : List (Str × Json) → List (Str × Json × CostFn)
  | [] => []
  | (k, j) :: ms => (k, j, cost env root j) :: costFields env root ms
end

/-- Work of `bool deserialize(rapidjson::Document& doc, T& obj)` (deserialize.hpp:31-41). -/
def costBool (env : Env) (t : Ty) (root : Json) (target : Val) (next : Nat) : Nat := cost env root root false t target [] [] ⟨[], next⟩

/-- Work of `T deserialize(rapidjson::Document& doc)` (deserialize.hpp:46-59). -/
def costThrow (env : Env) (t : Ty) (root : Json) (next : Nat) : Nat := cost env root root true t (env.fresh t) [] [] ⟨[], next⟩

/-! ## Measures -/

mutual
/-- Number of values in the document (specification). -/
def nodes : Json → Nat
  | .arr js => 1 + nodesAll js
  | .obj ms => 1 + nodesFields ms
  | _ => 1

/-- Number of values in the elements. -/
def nodesAll : List Json → Nat
  | [] => 0
  | j :: js => nodes j + nodesAll js

/-- Number of values in the members. -/
def nodesFields : List (Str × Json) → Nat
  | [] => 0
  | (_, j) :: ms => nodes j + nodesFields ms
end

mutual
/-- How many readers can work on the same node for a type: pointers pass it on, variants to all of their alternatives (specification). -/
def fan : Ty → Nat
  | .variant ts => 1 + fanAll ts
  | .uptr t => 1 + fan t
  | .sptr t => 1 + fan t
  | _ => 1

/-- The same for alternatives. -/
def fanAll : List Ty → Nat
  | [] => 0
  | t :: ts => fan t + fanAll ts
end

mutual
/-- How many of these readers go on to the elements of an array (`array`) or the members of an object (specification). -/
def opens (array : Bool) : Ty → Nat
  | .prim _ => 0
  | .map _ _ => if array then 0 else 1
  | .cls _ => if array then 0 else 1
  | .variant ts => opensAll array ts
  | .uptr t => opens array t
  | .sptr t => opens array t
  | _ => if array then 1 else 0

/-- The same for alternatives. -/
def opensAll (array : Bool) : List Ty → Nat
  | [] => 0
  | t :: ts => opens array t + opensAll array ts
end

/-! ## Upper bound -/

theorem costItems_eq (env : Env) (root : Json) (js : List Json) : costItems env root js = js.map fun j => (j, cost env root j) := by
  induction js with
  | nil => simp [costItems]
  | cons j js ih => simp [costItems, ih]

theorem costFields_eq (env : Env) (root : Json) (ms : List (Str × Json)) : costFields env root ms = ms.map fun p => (p.1, p.2, cost env root p.2) := by
  induction ms with
  | nil => simp [costFields]
  | cons p ms ih => cases p; simp [costFields, ih]

theorem cost_node (env : Env) (root j : Json) (exc : Bool) (t : Ty) :
    cost env root j exc t =
      costNode env root j (j.items.map fun j => (j, cost env root j)) (j.fields.map fun p => (p.1, p.2, cost env root p.2)) t exc := by
  cases j <;> simp [cost, Json.items, Json.fields, costItems_eq, costFields_eq]

theorem compared_le {α : Type} (name : Str) (ms : List (Str × α)) : compared name ms ≤ ms.length := by
  induction ms with
  | nil => simp [compared]
  | cons p ms ih => obtain ⟨k, a⟩ := p; simp only [compared, List.length_cons]; split <;> omega

/-- Upper bound of the work for a document: `u` for each value, `v` for each member, and the factor `d` for each level. -/
def weight (u v d : Nat) (j : Json) : Nat :=
  match j with
  | .arr js => u + d * weightAll js
  | .obj ms => u + v * ms.length + d * weightFields ms
  | _ => u
where
  /-- The same for elements. -/
  weightAll : List Json → Nat
    | [] => 0
    | j :: js => weight u v d j + weightAll js
  /-- The same for members. -/
  weightFields : List (Str × Json) → Nat
    | [] => 0
    | (_, j) :: ms => weight u v d j + weightFields ms

section
variable (env : Env) (root : Json) (F u v d : Nat)

theorem costSame_le (t : Ty) (exc : Bool) (js : List Json) (h : ∀ j ∈ js, ∀ target loc segs st, cost env root j exc t target loc segs st ≤ F * weight u v d j) (k : Nat)
    (loc : Loc) (segs : List Seg) (st : DState) : costSame env root t exc (js.map fun j => (j, cost env root j)) k loc segs st ≤ F * weight.weightAll u v d js := by
  induction js generalizing k st with
  | nil => simp [costSame]
  | cons j js ih =>
    simp only [List.map_cons, costSame, weight.weightAll, Nat.mul_add]
    refine Nat.add_le_add (h j (by simp) _ _ _ _) ?_
    split
    · exact ih (fun j hj => h j (by simp [hj])) _ _
    · exact Nat.zero_le _

theorem costTuple_le (exc : Bool) (js : List Json) (ts : List Ty) (h : ∀ j ∈ js, ∀ t ∈ ts, ∀ target loc segs st, cost env root j exc t target loc segs st ≤ F * weight u v d j)
    (targets : List Val) (k : Nat) (loc : Loc) (segs : List Seg) (st : DState) :
    costTuple env root exc (js.map fun j => (j, cost env root j)) ts targets k loc segs st ≤ F * weight.weightAll u v d js := by
  induction js generalizing ts targets k st with
  | nil => simp [costTuple]
  | cons j js ih =>
    cases ts with
    | nil => simp [costTuple]
    | cons t ts =>
      simp only [List.map_cons, costTuple, weight.weightAll, Nat.mul_add]
      refine Nat.add_le_add (h j (by simp) t (by simp) _ _ _ _) ?_
      split
      · exact ih ts (fun j hj t ht => h j (by simp [hj]) t (by simp [ht])) _ _ _
      · exact Nat.zero_le _

theorem costEntries_le (t : Ty) (exc : Bool) (ms : List (Str × Json)) (h : ∀ p ∈ ms, ∀ target loc segs st, cost env root p.2 exc t target loc segs st ≤ F * weight u v d p.2) (k : Nat)
    (loc : Loc) (segs : List Seg) (st : DState) :
    costEntries env root t exc (ms.map fun p => (p.1, p.2, cost env root p.2)) k loc segs st ≤ F * weight.weightFields u v d ms := by
  induction ms generalizing k st with
  | nil => simp [costEntries]
  | cons p ms ih =>
    obtain ⟨key, j⟩ := p
    simp only [List.map_cons, costEntries, weight.weightFields, Nat.mul_add]
    refine Nat.add_le_add (h (key, j) (by simp) _ _ _ _) ?_
    split
    · exact ih (fun j hj => h j (by simp [hj])) _ _
    · exact Nat.zero_le _

/-- Weight of the member with the name. -/
def weightOf (name : Str) (ms : List (Str × Json)) : Nat :=
  match findMember name ms with
  | some (_, j) => weight u v d j
  | none => 0

/-- Sum of the weights of the members with the names. -/
def weightsOf (ms : List (Str × Json)) : List Str → Nat
  | [] => 0
  | n :: ns => weightOf u v d n ms + weightsOf ms ns

theorem weightsOf_nil (ns : List Str) : weightsOf u v d [] ns = 0 := by
  induction ns with
  | nil => rfl
  | cons n ns ih => simp [weightsOf, weightOf, findMember, ih]

theorem weightsOf_cons (k : Str) (j : Json) (ms : List (Str × Json)) (ns : List Str) (hn : ns.Nodup) :
    weightsOf u v d ((k, j) :: ms) ns ≤ (if k ∈ ns then weight u v d j else 0) + weightsOf u v d ms ns := by
  induction ns with
  | nil => simp [weightsOf]
  | cons n ns ih =>
    obtain ⟨h1, h2⟩ := List.nodup_cons.1 hn
    have ih := ih h2
    simp only [weightsOf]
    by_cases hk : k = n
    · subst hk
      rw [if_neg h1] at ih
      have h3 : weightOf u v d k ((k, j) :: ms) = weight u v d j := by simp [weightOf, findMember]
      rw [h3, if_pos (by simp)]
      omega
    · have h3 : weightOf u v d n ((k, j) :: ms) = weightOf u v d n ms := by
        simp only [weightOf, findMember, if_neg hk]
        cases findMember n ms <;> rfl
      rw [h3]
      have h4 : (k ∈ n :: ns) ↔ k ∈ ns := by simp [hk]
      simp only [h4]
      omega

theorem weightsOf_le (ms : List (Str × Json)) (ns : List Str) (hn : ns.Nodup) : weightsOf u v d ms ns ≤ weight.weightFields u v d ms := by
  induction ms with
  | nil => rw [weightsOf_nil]; exact Nat.zero_le _
  | cons p ms ih =>
    obtain ⟨k, j⟩ := p
    have := weightsOf_cons u v d k j ms ns hn
    simp only [weight.weightFields]
    split at this <;> omega

theorem find_cost (name : Str) (ms : List (Str × Json)) :
    findMember name (ms.map fun p => (p.1, p.2, cost env root p.2)) = (findMember name ms).map fun r => (r.1, r.2, cost env root r.2) := by
  induction ms with
  | nil => rfl
  | cons p ms ih =>
    obtain ⟨k, j⟩ := p
    simp only [List.map_cons, findMember]
    split
    · rfl
    · rw [ih]
      cases findMember name ms <;> rfl

theorem costMembers_le (exc : Bool) (ms : List (Str × Json)) (loc : Loc) (segs : List Seg) (mems : List Member)
    (h : ∀ m ∈ mems, ∀ p ∈ ms, ∀ target loc segs st, cost env root p.2 exc m.ty target loc segs st ≤ F * weight u v d p.2) (targets : List Val) (st : DState) :
    costMembers env root exc (ms.map fun p => (p.1, p.2, cost env root p.2)) loc segs mems targets st ≤
      mems.length * ms.length + F * weightsOf u v d ms (mems.map (·.name)) := by
  induction mems generalizing targets st with
  | nil => simp [costMembers]
  | cons m mems ih =>
    have ih := ih fun m hm => h m (by simp [hm])
    have h1 := compared_le m.name (ms.map fun p => (p.1, p.2, cost env root p.2))
    rw [List.length_map] at h1
    simp only [costMembers, find_cost, List.length_cons, List.map_cons, weightsOf, Nat.mul_add, Nat.add_mul]
    cases hf : findMember m.name ms with
    | none =>
      simp only [Option.map]
      split
      · omega
      · have := ih targets.tail st
        omega
    | some r =>
      obtain ⟨i, j⟩ := r
      have h2 : weightOf u v d m.name ms = weight u v d j := by simp [weightOf, hf]
      have hm := h m (by simp) (m.name, j) (findMember_mem hf)
      simp only [Option.map, h2]
      generalize (if m.kind = .optional then env.fresh m.ty else targets.headD (env.fresh m.ty)) = x
      have h3 := hm x (i :: loc) (Seg.name (cstr m.name) :: segs) st
      split
      · rename_i st' _
        have := ih targets.tail st'
        exact Nat.le_trans (Nat.add_le_add h1 (Nat.add_le_add h3 this)) (by simp only; omega)
      · exact Nat.le_trans (Nat.add_le_add h1 (Nat.add_le_add h3 (Nat.zero_le (mems.length * ms.length + F * weightsOf u v d ms (mems.map (·.name)))))) (by simp only; omega)

theorem resolved_le (j : Json) (toks : List Str) : resolved j toks ≤ 2 * nodes j := by
  induction toks generalizing j with
  | nil => simp [resolved]
  | cons t ts ih =>
    have hall : ∀ (js : List Json) (n : Nat) (j : Json), js[n]? = some j → nodes j ≤ nodesAll js := by
      intro js
      induction js with
      | nil => simp
      | cons a js ih =>
        intro n j hj
        cases n with
        | zero => simp at hj; subst hj; simp [nodesAll]
        | succ n => simp at hj; have := ih n j hj; simp only [nodesAll]; omega
    have hfind : ∀ (ms : List (Str × Json)), compared t ms ≤ nodesFields ms ∧ ∀ i j, findMember t ms = some (i, j) → 1 ≤ compared t ms ∧ compared t ms + nodes j ≤ nodesFields ms + 1 := by
      intro ms
      induction ms with
      | nil => simp [compared, findMember]
      | cons p ms ih =>
        obtain ⟨k, j⟩ := p
        have hj : 1 ≤ nodes j := by cases j <;> simp [nodes]
        simp only [compared, findMember, nodesFields]
        split
        · refine ⟨by omega, fun i j' h => ?_⟩
          cases h
          omega
        · refine ⟨by omega, fun i j' h => ?_⟩
          cases hf : findMember t ms with
          | none => simp [hf] at h
          | some r =>
            obtain ⟨i', j''⟩ := r
            simp only [hf, Option.some.injEq, Prod.mk.injEq] at h
            obtain ⟨-, rfl⟩ := h
            have := ih.2 i' j'' hf
            omega
    cases j with
    | obj ms =>
      simp only [resolved, nodes]
      have h1 := hfind ms
      cases hf : findMember t ms with
      | none => simp only; omega
      | some r =>
        obtain ⟨i, j⟩ := r
        have h2 := h1.2 i j hf
        have h3 := ih j
        have hj : 1 ≤ nodes j := by cases j <;> simp [nodes]
        simp only
        omega
    | arr js =>
      simp only [resolved, nodes]
      cases tokenIndex t with
      | none => simp only; omega
      | some n =>
        cases hn : js[n]? with
        | none => simp only [hn]; omega
        | some j =>
          have h2 := hall js n j hn
          have h3 := ih j
          simp only [hn]
          omega
    | _ => simp [resolved, nodes]

end

/-- What the bounds have to do with a type: at most `F` readers work on one node, at most `D` of them go on to its elements or members, classes have
at most `M` members. -/
def Bounded (env : Env) (F M D : Nat) (t : Ty) : Prop :=
  ∀ u, Within env t u → fan u ≤ F ∧ (∀ array, opens array u ≤ D) ∧ ∀ c, u = .cls c → (env.members c).length ≤ M

theorem Bounded.inner {env : Env} {F M D : Nat} {t t' : Ty} (h : Bounded env F M D t) (hi : Inner env t t') : Bounded env F M D t' :=
  fun u hu => h u (.of_inner hi hu)

/-- Weight of the elements or members. -/
def below (u v d : Nat) : Json → Nat
  | .arr js => weight.weightAll u v d js
  | .obj ms => weight.weightFields u v d ms
  | _ => 0

/-- The node is an array. -/
def isArray : Json → Bool
  | .arr _ => true
  | _ => false

theorem weight_eq (u v d : Nat) (j : Json) : weight u v d j = u + v * j.fields.length + d * below u v d j := by
  cases j <;> simp [weight, below, Json.fields]

theorem noKeys_item {names : List Str} {js : List Json} (h : NoKeysAll names js) {j : Json} (hj : j ∈ js) : NoKeys names j := by
  induction js with
  | nil => simp at hj
  | cons a js ih =>
    rcases List.mem_cons.1 hj with rfl | hj
    · exact h.1
    · exact ih h.2 hj

theorem noKeys_field {names : List Str} {ms : List (Str × Json)} (h : NoKeysFields names ms) {p : Str × Json} (hp : p ∈ ms) : p.1 ∉ names ∧ NoKeys names p.2 := by
  induction ms with
  | nil => simp at hp
  | cons a ms ih =>
    obtain ⟨k, j⟩ := a
    rcases List.mem_cons.1 hp with rfl | hp
    · exact ⟨h.1, h.2.1⟩
    · exact ih h.2.2 hp

theorem noKeys_ref {j : Json} (h : NoKeys [lit "$ref"] j) : refMember j = none := by
  cases j with
  | obj ms =>
    simp only [refMember, Option.map_eq_none_iff]
    cases hf : findMember (lit "$ref") ms with
    | none => rfl
    | some r => exact absurd (List.mem_singleton.2 rfl) (noKeys_field h (findMember_mem hf)).1
  | _ => rfl

theorem costRef_le (env : Env) (root r : Json) : costRef env root r ≤ 2 * nodes root := by
  cases r with
  | str p =>
    simp only [costRef]
    split
    · exact Nat.zero_le _
    · exact resolved_le _ _
  | _ => exact Nat.zero_le _

theorem cost_fan (env : Env) (hd : env.DistinctNames) (root : Json) (F M D R : Nat) :
    ∀ j t, NoKeys [lit "$ref"] j ∨ 2 * nodes root ≤ R → Bounded env F M D t → ∀ exc target loc segs st,
      cost env root j exc t target loc segs st ≤
        fan t * (1 + R + (M + 1) * j.fields.length) + opens (isArray j) t * (F * below (1 + R) (M + 1) D j) := by
  refine lexInd fun j t ihj iht hk hb exc target loc segs st => ?_
  have full : ∀ j', sizeOf j' < sizeOf j → NoKeys [lit "$ref"] j' ∨ 2 * nodes root ≤ R → ∀ t', Inner env t t' →
      ∀ exc target loc segs st, cost env root j' exc t' target loc segs st ≤ F * weight (1 + R) (M + 1) D j' := by
    intro j' hj hk' t' hi exc target loc segs st
    have hb' := hb.inner hi
    refine Nat.le_trans (ihj j' hj t' hk' hb' exc target loc segs st) ?_
    obtain ⟨h1, h2, _⟩ := hb' t' .self
    rw [weight_eq, Nat.mul_add F]
    refine Nat.add_le_add (Nat.mul_le_mul_right _ h1) ?_
    rw [Nat.mul_left_comm _ F]
    exact Nat.mul_le_mul_left _ (Nat.mul_le_mul_right _ (h2 _))
  have items : ∀ js, j = .arr js → ∀ j' ∈ js, ∀ t', Inner env t t' → ∀ exc target loc segs st, cost env root j' exc t' target loc segs st ≤ F * weight (1 + R) (M + 1) D j' := by
    rintro js rfl j' hj' t' hi
    exact full j' (size_item hj') (hk.imp (fun h => noKeys_item h hj') id) t' hi
  have fields : ∀ ms, j = .obj ms → ∀ p ∈ ms, ∀ t', Inner env t t' → ∀ exc target loc segs st, cost env root p.2 exc t' target loc segs st ≤ F * weight (1 + R) (M + 1) D p.2 := by
    rintro ms rfl p hp t' hi
    exact full p.2 (size_field hp) (hk.imp (fun h => (noKeys_field h hp).2) id) t' hi
  have one : ∀ n, 1 ≤ 1 * (1 + R + (M + 1) * n) := fun n => by omega
  rw [cost_node]
  cases t with
  | prim p => simp only [costNode, fan, opens]; have := one j.fields.length; omega
  | vec t =>
    simp only [costNode, fan, opens]
    refine Nat.add_le_add (one _) ?_
    cases j with
    | arr js =>
      simp only [isArray, if_true, Nat.one_mul, below, Json.items]
      exact costSame_le env root F _ _ _ t exc js (fun j hj => items js rfl j hj t (.vec t) exc) _ _ _ _
    | _ => simp [Json.items, costSame]
  | arr n t =>
    simp only [costNode, fan, opens]
    refine Nat.add_le_add (one _) ?_
    split
    · cases j with
      | arr js =>
        simp only [isArray, if_true, Nat.one_mul, below, Json.items]
        exact costSame_le env root F _ _ _ t exc js (fun j hj => items js rfl j hj t (.arr n t) exc) _ _ _ _
      | _ => simp [Json.items, costSame]
    · exact Nat.zero_le _
  | set t =>
    simp only [costNode, fan, opens]
    refine Nat.add_le_add (one _) ?_
    cases j with
    | arr js =>
      simp only [isArray, if_true, Nat.one_mul, below, Json.items]
      exact costSame_le env root F _ _ _ t exc js (fun j hj => items js rfl j hj t (.set t) exc) _ _ _ _
    | _ => simp [Json.items, costSame]
  | map o t =>
    simp only [costNode, fan, opens]
    refine Nat.add_le_add (one _) ?_
    cases j with
    | obj ms =>
      simp only [isArray, Bool.false_eq_true, if_false, Nat.one_mul, below, Json.fields]
      exact costEntries_le env root F _ _ _ t exc ms (fun p hp => fields ms rfl p hp t (.map o t) exc) _ _ _ _
    | _ => simp [Json.fields, costEntries]
  | dict t =>
    simp only [costNode, fan, opens]
    refine Nat.add_le_add (one _) ?_
    cases j with
    | arr js =>
      simp only [isArray, if_true, Nat.one_mul, below, Json.items]
      exact costSame_le env root F _ _ _ _ exc js (fun j hj => items js rfl j hj _ (.dict t) exc) _ _ _ _
    | _ => simp [Json.items, costSame]
  | tuple ts =>
    simp only [costNode, fan, opens]
    refine Nat.add_le_add (one _) ?_
    split
    · cases j with
      | arr js =>
        simp only [isArray, if_true, Nat.one_mul, below, Json.items]
        exact costTuple_le env root F _ _ _ exc js ts (fun j hj t ht => items js rfl j hj t (.tuple ts t ht) exc) _ _ _ _ _
      | _ => simp [Json.items, costTuple]
    · exact Nat.zero_le _
  | cls c =>
    simp only [costNode, fan, opens]
    cases j with
    | obj ms =>
      simp only [isArray, Bool.false_eq_true, if_false, Nat.one_mul, below, Json.fields]
      have h1 := costMembers_le env root F (1 + R) (M + 1) D exc ms loc segs (env.members c) (fun m hm p hp => fields ms rfl p hp m.ty (.cls c m hm) exc) target.members st
      have h2 := weightsOf_le (1 + R) (M + 1) D ms _ (hd c)
      have h3 := Nat.mul_le_mul_left F h2
      have h4 := Nat.mul_le_mul_right ms.length ((hb _ .self).2.2 c rfl)
      rw [Nat.add_mul]
      omega
    | _ => have := one 0; simp [Json.fields]; omega
  | variant ts =>
    simp only [costNode, fan, opens]
    have hall : ∀ us, (∀ t' ∈ us, t' ∈ ts) → ∀ st, costAlternatives env root j (j.items.map fun j => (j, cost env root j)) (j.fields.map fun p => (p.1, p.2, cost env root p.2)) us loc segs st ≤
        fanAll us * (1 + R + (M + 1) * j.fields.length) + opensAll (isArray j) us * (F * below (1 + R) (M + 1) D j) := by
      intro us
      induction us with
      | nil => intro _ st; simp [costAlternatives]
      | cons t us ih =>
        intro hus st
        have ht := hus t (by simp)
        have h1 := iht t (size_alt ht) hk (hb.inner (.variant ts t ht)) false (env.fresh t) loc segs st
        rw [cost_node] at h1
        simp only [costAlternatives, fanAll, opensAll, Nat.add_mul]
        split
        · rename_i st' _
          have h2 := ih (fun t' ht' => hus t' (by simp [ht'])) st'
          exact Nat.le_trans (Nat.add_le_add h1 h2) (by simp only [Nat.add_mul]; omega)
        · simp only [Nat.add_mul] at h1
          omega
    have := hall ts (fun _ h => h) st
    have h1 := one j.fields.length
    rw [Nat.add_mul]
    omega
  | uptr t =>
    simp only [costNode, fan, opens]
    have h1 := iht t (by simp +arith) hk (hb.inner (.uptr t)) exc (env.ctor t) loc segs st
    rw [cost_node] at h1
    have h2 := one j.fields.length
    rw [Nat.add_mul]
    omega
  | sptr t =>
    simp only [costNode, fan, opens]
    have h2 : 1 + compared (lit "$ref") (j.fields.map fun p => (p.1, p.2, cost env root p.2)) ≤ 1 + j.fields.length := by
      have := compared_le (lit "$ref") (j.fields.map fun p => (p.1, p.2, cost env root p.2))
      rw [List.length_map] at this
      omega
    have h3 : j.fields.length ≤ (M + 1) * j.fields.length := Nat.le_mul_of_pos_left _ (Nat.succ_pos _)
    have h4 : 1 + j.fields.length + R ≤ 1 * (1 + R + (M + 1) * j.fields.length) := by omega
    rw [Nat.add_mul]
    cases hr : refMember j with
    | some r =>
      have h5 := costRef_le env root r
      rcases hk with hk | hk
      · rw [noKeys_ref hk] at hr; cases hr
      · simp only
        omega
    | none =>
      have h1 := iht t (by simp +arith) hk (hb.inner (.sptr t)) exc (env.ctor t) loc segs { st with next := st.next + 1 }
      rw [cost_node] at h1
      simp only
      omega

/-- The work is at most `F` times the weight. -/
theorem cost_le (env : Env) (hd : env.DistinctNames) (root : Json) (F M D R : Nat) (j : Json) (t : Ty) (hk : NoKeys [lit "$ref"] j ∨ 2 * nodes root ≤ R) (hb : Bounded env F M D t)
    (exc : Bool) (target : Val) (loc : Loc) (segs : List Seg) (st : DState) :
    cost env root j exc t target loc segs st ≤ F * weight (1 + R) (M + 1) D j := by
  refine Nat.le_trans (cost_fan env hd root F M D R j t hk hb exc target loc segs st) ?_
  obtain ⟨h1, h2, _⟩ := hb t .self
  rw [weight_eq, Nat.mul_add F]
  refine Nat.add_le_add (Nat.mul_le_mul_right _ h1) ?_
  rw [Nat.mul_left_comm _ F]
  exact Nat.mul_le_mul_left _ (Nat.mul_le_mul_right _ (h2 _))

theorem weight_nodes (u v d : Nat) (hd : 1 ≤ d) (j : Json) : weight u v d j + v ≤ d ^ j.depth * ((u + v) * nodes j) := by
  have hp : ∀ n m, n ≤ m → ∀ x, d ^ n * x ≤ d ^ m * x := fun n m h x => Nat.mul_le_mul_right x (Nat.pow_le_pow_right hd h)
  have h1 : ∀ n x, x ≤ d ^ n * x := fun n x => Nat.le_mul_of_pos_left _ (Nat.pow_pos hd)
  refine Json.rec (motive_1 := fun j => weight u v d j + v ≤ d ^ j.depth * ((u + v) * nodes j))
    (motive_2 := fun js => d * weight.weightAll u v d js ≤ d ^ (1 + Json.depthAll js) * ((u + v) * nodesAll js))
    (motive_3 := fun ms => v * ms.length + d * weight.weightFields u v d ms ≤ d ^ (1 + Json.depthFields ms) * ((u + v) * nodesFields ms))
    (motive_4 := fun p => weight u v d p.2 + v ≤ d ^ p.2.depth * ((u + v) * nodes p.2)) ?_ ?_ ?_ ?_ ?_ ?_ ?_ ?_ ?_ ?_ ?_ j
  · simp [weight, nodes, Json.depth]
  · intro b; simp [weight, nodes, Json.depth]
  · intro n; simp [weight, nodes, Json.depth]
  · intro s; simp [weight, nodes, Json.depth]
  · intro js ih
    simp only [weight, nodes, Json.depth, Nat.mul_add, Nat.mul_one] at ih ⊢
    have := h1 (1 + Json.depthAll js) u
    have := h1 (1 + Json.depthAll js) v
    omega
  · intro ms ih
    simp only [weight, nodes, Json.depth, Nat.mul_add, Nat.mul_one] at ih ⊢
    have := h1 (1 + Json.depthFields ms) u
    have := h1 (1 + Json.depthFields ms) v
    omega
  · simp [weight.weightAll, nodesAll]
  · intro j js h2 h3
    simp only [weight.weightAll, nodesAll, Json.depthAll]
    have h4 := Nat.mul_le_mul_left d h2
    rw [← Nat.mul_assoc, ← Nat.pow_succ'] at h4
    have h5 := hp (j.depth + 1) (1 + Nat.max j.depth (Json.depthAll js)) (by have := Nat.le_max_left j.depth (Json.depthAll js); change _ ≤ 1 + max _ _; omega) ((u + v) * nodes j)
    have h6 := hp (1 + Json.depthAll js) (1 + Nat.max j.depth (Json.depthAll js)) (by have := Nat.le_max_right j.depth (Json.depthAll js); change _ ≤ 1 + max _ _; omega) ((u + v) * nodesAll js)
    have h7 : d * weight u v d j ≤ d * (weight u v d j + v) := Nat.mul_le_mul_left d (Nat.le_add_right _ _)
    simp only [Nat.mul_add (u + v), Nat.mul_add (d ^ _)]
    rw [Nat.mul_add d]
    exact Nat.add_le_add (Nat.le_trans h7 (Nat.le_trans h4 h5)) (Nat.le_trans h3 h6)
  · simp [weight.weightFields, nodesFields]
  · rintro ⟨k, j⟩ ms h2 h3
    simp only [weight.weightFields, nodesFields, Json.depthFields] at h2 ⊢
    have h4 := Nat.mul_le_mul_left d h2
    rw [← Nat.mul_assoc, ← Nat.pow_succ'] at h4
    have h5 := hp (j.depth + 1) (1 + Nat.max j.depth (Json.depthFields ms)) (by have := Nat.le_max_left j.depth (Json.depthFields ms); change _ ≤ 1 + max _ _; omega) ((u + v) * nodes j)
    have h6 := hp (1 + Json.depthFields ms) (1 + Nat.max j.depth (Json.depthFields ms)) (by have := Nat.le_max_right j.depth (Json.depthFields ms); change _ ≤ 1 + max _ _; omega) ((u + v) * nodesFields ms)
    have h7 : v ≤ d * v := Nat.le_mul_of_pos_left _ hd
    simp only [Nat.mul_add (u + v), Nat.mul_add (d ^ _), List.length_cons]
    rw [Nat.mul_add d, Nat.mul_add v] at *
    have h8 := Nat.le_trans h4 h5
    have h9 := Nat.le_trans h3 h6
    omega
  · exact fun _ _ h => h

/-- The work for a document, by its size and depth. -/
theorem cost_bound (env : Env) (hd : env.DistinctNames) (root : Json) (F M D R : Nat) (hD : 1 ≤ D) (t : Ty) (hk : NoKeys [lit "$ref"] root ∨ 2 * nodes root ≤ R) (hb : Bounded env F M D t)
    (exc : Bool) (target : Val) (loc : Loc) (segs : List Seg) (st : DState) :
    cost env root root exc t target loc segs st ≤ D ^ root.depth * (F * (M + 2 + R) * nodes root) := by
  refine Nat.le_trans (cost_le env hd root F M D R root t hk hb exc target loc segs st) ?_
  have h := weight_nodes (1 + R) (M + 1) D hD root
  have h1 := Nat.mul_le_mul_left F (Nat.le_trans (Nat.le_add_right _ _) h)
  rw [show 1 + R + (M + 1) = M + 2 + R by omega] at h1
  rw [Nat.mul_assoc F, Nat.mul_left_comm]
  exact h1

end Verif.Core
