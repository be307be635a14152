import Verif.Survive

/-!
# What a failed serialization leaves in the destination

`bool serialize_to_document(const T&, rapidjson::Document&)` (serialize.hpp:33-39) and
`bool write_to_string(const T&, StringWriter&)` (write.hpp:30-36) work directly on the destination of the caller. `serLeft` and
`writeLeft` model its content afterwards, also if `false` is returned. (`write_to_string(const T&, std::string&)` has a buffer of
its own, see `writeToString`.)
-/

namespace Verif.Core
open Verif.Numeric

/-! ## Model -/

/-- The array built by the loops of serialize_vector.hpp:19-28, serialize_array.hpp:19-28 and serialize_tuple.hpp:24-44 when they
end: the element that fails (`item_json`) is discarded, those before it stay. -/
def leftItems (env : Env) : List Val → List Ty → Nat → List Seg → STab → List Json
  | v :: vs, t :: ts, k, segs, σ =>
      match ser env v t (.index k :: segs) σ with
      | .done σ' (some j) => j :: leftItems env vs ts (k + 1) segs σ'
      | _ => []
  | _, _, _, _, _ => []

/-- The array built by the loop of serialize_set.hpp:19-28. -/
def leftSet (env : Env) : List Val → Ty → List Seg → STab → List Json
  | v :: vs, t, segs, σ =>
      match ser env v t segs σ with
      | .done σ' (some j) => j :: leftSet env vs t segs σ'
      | _ => []
  | [], _, _, _ => []

/-- The object built by the loop of serialize_map.hpp:19-30: key and value are added only after the value has been serialized
(26-28). -/
def leftEntries : List (Str × SerFn) → List Seg → STab → List (Str × Json)
  | (k, f) :: rest, segs, σ =>
      match f (Seg.name k :: segs) σ with
      | .done σ' (some j) => (k, j) :: leftEntries rest segs σ'
      | _ => []
  | [], _, _ => []

/-- The content of `json`, which was `prev`, after `serialize(obj, json, context)` (serialize.hpp:23-28). A number that is not
finite is refused before `json` is touched (serialize_fundamental.hpp:127-132); containers begin with `SetArray` or `SetObject`
(serialize_vector.hpp:16, serialize_array.hpp:16, serialize_set.hpp:16, serialize_tuple.hpp:17, serialize_map.hpp:18); variants
and pointers pass `json` on (serialize_variant.hpp:17, serialize_pointer.hpp:17, 49-51, 54); objects do not fail
(serialize_object.hpp:65-67). -/
def serLeft (env : Env) : Val → Ty → List Seg → STab → Json → Json
  | .prim p, .prim k, _, _, prev =>
      match serPrim env k p with
      | .ok j => j
      | _ => prev
  | .seq vs, .vec t, segs, σ, _ => .arr (leftItems env vs (List.replicate vs.length t) 0 segs σ)
  | .tup vs, .arr n t, segs, σ, _ => .arr (leftItems env vs (List.replicate n t) 0 segs σ)
  | .tup vs, .tuple ts, segs, σ, _ => .arr (leftItems env vs ts 0 segs σ)
  | .set vs, .set t, segs, σ, _ => .arr (leftSet env vs t segs σ)
  | .map kvs, .map ordered t, segs, σ, _ => .obj (leftEntries (iterate env ordered segs (serVals env kvs t)) segs σ)
  | .dict kvs, .dict t, segs, σ, _ => .obj (leftEntries (serVals env kvs t) segs σ)
  | .alt i v, .variant ts, segs, σ, prev =>
      match ts[i]? with
      | some t => serLeft env v t segs σ prev
      | none => prev
  | .obj vs, .cls c, segs, σ, prev =>
      match serMembers env vs (env.members c) segs σ with
      | .done _ (some js) => .obj js
      | _ => prev
  | .uptr v, .uptr t, segs, σ, prev => serLeft env v t segs σ prev
  | .sptr a v, .sptr t, segs, σ, prev =>
      match σ.get a with
      | some s => .obj [(lit "$ref", .str (pathStr s))]
      | none => serLeft env v t segs σ prev
  | _, _, _, _, prev => prev

/-- `serialize_to_document(obj, doc)` (serialize.hpp:33-39) on a document with the content `prev`: `none` is undefined behaviour,
otherwise the value returned and the content of `doc` afterwards. -/
def serializeInto (env : Env) (t : Ty) (v : Val) (prev : Json) : Option (Bool × Json) :=
  match ser env v t [] [] with
  | .ub => none
  | .done _ r => some (r.isSome, serLeft env v t [] [] prev)

/-- `write_to_string(obj, writer)` (write.hpp:30-36): `none` is undefined behaviour, otherwise the value returned and the calls
made on `writer`. -/
def writeInto (env : Env) (t : Ty) (v : Val) : Option (Bool × List Event) :=
  match wr env v t [] [] with
  | .ub => none
  | .done _ ok es => some (ok, es)

/-! ## Specification -/

/-- The container inside all alternatives and pointers, cut off before its first element that cannot be serialized; maps as list
of pairs in the order of iteration. `none` for a lone number (specification). -/
def trimmed (env : Env) : Val → Ty → Option (Val × Ty)
  | .seq vs, .vec t => some (.seq (vs.takeWhile survives), .vec t)
  | .tup vs, .arr _ t => some (.tup (vs.takeWhile survives), .arr (vs.takeWhile survives).length t)
  | .tup vs, .tuple ts => some (.tup (vs.takeWhile survives), .tuple (ts.take (vs.takeWhile survives).length))
  | .set vs, .set t => some (.set (vs.takeWhile survives), .set t)
  | .map kvs, .map ordered t => some (.dict ((iterate env ordered [] kvs).takeWhile fun p => survives p.2), .dict t)
  | .dict kvs, .dict t => some (.dict (kvs.takeWhile fun p => survives p.2), .dict t)
  | .alt i v, .variant ts => ts[i]?.bind (trimmed env v)
  | .uptr v, .uptr t => trimmed env v t
  | .sptr _ v, .sptr t => trimmed env v t
  | _, _ => none

mutual
/-- The value with every infinity and NaN replaced by `x` (specification). -/
def patch (x : Flt) : Val → Val
  | .prim (.flt f) => .prim (.flt (if f.isFinite then f else x))
  | .prim p => .prim p
  | .seq vs => .seq (patchAll x vs)
  | .tup vs => .tup (patchAll x vs)
  | .set vs => .set (patchAll x vs)
  | .map kvs => .map (patchVals x kvs)
  | .dict kvs => .dict (patchVals x kvs)
  | .alt i v => .alt i (patch x v)
  | .obj vs => .obj (patchAll x vs)
  | .absent => .absent
  | .present v => .present (patch x v)
  | .nullptr => .nullptr
  | .uptr v => .uptr (patch x v)
  | .sptr a v => .sptr a (patch x v)

/-- `patch` for lists. -/
def patchAll (x : Flt) : List Val → List Val
  | [] => []
  | v :: vs => patch x v :: patchAll x vs

/-- `patch` for the values of a map. -/
def patchVals (x : Flt) : List (Str × Val) → List (Str × Val)
  | [] => []
  | (k, v) :: kvs => (k, patch x v) :: patchVals x kvs
end

/-! ## The document -/

theorem always_may (σ : STab) (l : List Nat) : May (fun _ => True) σ l := fun _ _ => trivial

/-- What an element does in its context. -/
theorem ser_either (env : Env) (hfair : env.Fair) (H : Heap) (v : Val) (t : Ty) (segs : List Seg) (σ : STab) (ht : HasTy env H v t)
    (hσ : AllSurvive H σ) : ∃ σ', AllSurvive H σ' ∧
      ((survives v = true ∧ ∃ j, ser env v t segs σ = .done σ' (some j)) ∨ (survives v = false ∧ ser env v t segs σ = .done σ' none)) := by
  obtain ⟨σ', r, h1, h2, h3⟩ := ser_total env hfair H (fun _ => True) v t segs σ ht hσ (always_may _ _)
  refine ⟨σ', h2.all, ?_⟩
  cases r with
  | none => exact .inr ⟨h3, h1⟩
  | some j => exact .inl ⟨h3.1, j, h1⟩

theorem leftItems_trim (env : Env) (hfair : env.Fair) (H : Heap) (vs : List Val) : ∀ ts k segs σ, HasTys env H vs ts → AllSurvive H σ →
    ∃ σ', serItems env (vs.takeWhile survives) (ts.take (vs.takeWhile survives).length) k segs σ =
      .done σ' (some (leftItems env vs ts k segs σ)) := by
  induction vs with
  | nil => intro ts k segs σ _ _; exact ⟨σ, by simp [serItems, leftItems]⟩
  | cons v vs ih =>
    intro ts k segs σ ht hσ
    cases ts with
    | nil => simp [HasTys] at ht
    | cons t ts =>
      simp only [HasTys] at ht
      obtain ⟨σ1, hσ1, ⟨hs, j, h1⟩ | ⟨hs, h1⟩⟩ := ser_either env hfair H v t (.index k :: segs) σ ht.1 hσ
      · obtain ⟨σ2, h2⟩ := ih ts (k + 1) segs σ1 ht.2 hσ1
        refine ⟨σ2, ?_⟩
        rw [List.takeWhile_cons_of_pos hs]
        simp only [List.length_cons, List.take_succ_cons, serItems, h1, h2, leftItems, SRes.map, Option.map_some]
      · refine ⟨σ, ?_⟩
        rw [List.takeWhile_cons_of_neg (by simp [hs])]
        simp [serItems, leftItems, h1]

theorem leftSet_trim (env : Env) (hfair : env.Fair) (H : Heap) (t : Ty) (vs : List Val) : ∀ segs σ, (∀ v ∈ vs, HasTy env H v t) →
    AllSurvive H σ → ∃ σ', serSet env (vs.takeWhile survives) t segs σ = .done σ' (some (leftSet env vs t segs σ)) := by
  induction vs with
  | nil => intro segs σ _ _; exact ⟨σ, by simp [serSet, leftSet]⟩
  | cons v vs ih =>
    intro segs σ ht hσ
    obtain ⟨σ1, hσ1, ⟨hs, j, h1⟩ | ⟨hs, h1⟩⟩ := ser_either env hfair H v t segs σ (ht v (by simp)) hσ
    · obtain ⟨σ2, h2⟩ := ih segs σ1 (fun w hw => ht w (by simp [hw])) hσ1
      refine ⟨σ2, ?_⟩
      rw [List.takeWhile_cons_of_pos hs]
      simp only [serSet, h1, h2, leftSet, SRes.map, Option.map_some]
    · refine ⟨σ, ?_⟩
      rw [List.takeWhile_cons_of_neg (by simp [hs])]
      simp [serSet, leftSet, h1]

theorem leftEntries_trim (env : Env) (hfair : env.Fair) (H : Heap) (t : Ty) (kvs : List (Str × Val)) : ∀ segs σ,
    (∀ p ∈ kvs, HasTy env H p.2 t) → AllSurvive H σ →
    ∃ σ', serEntries ((kvs.takeWhile fun p => survives p.2).map fun p => (p.1, ser env p.2 t)) segs σ =
      .done σ' (some (leftEntries (kvs.map fun p => (p.1, ser env p.2 t)) segs σ)) := by
  induction kvs with
  | nil => intro segs σ _ _; exact ⟨σ, by simp [serEntries, leftEntries]⟩
  | cons p kvs ih =>
    obtain ⟨key, v⟩ := p
    intro segs σ ht hσ
    obtain ⟨σ1, hσ1, ⟨hs, j, h1⟩ | ⟨hs, h1⟩⟩ := ser_either env hfair H v t (Seg.name key :: segs) σ (ht (key, v) (by simp)) hσ
    · obtain ⟨σ2, h2⟩ := ih segs σ1 (fun w hw => ht w (by simp [hw])) hσ1
      refine ⟨σ2, ?_⟩
      rw [List.takeWhile_cons_of_pos (by exact hs)]
      simp only [List.map_cons, serEntries, h1, h2, leftEntries, SRes.map, Option.map_some]
    · refine ⟨σ, ?_⟩
      rw [List.takeWhile_cons_of_neg (by simp [hs])]
      simp [serEntries, leftEntries, h1]

theorem take_replicate_while (vs : List Val) (t : Ty) :
    (List.replicate vs.length t).take (vs.takeWhile survives).length = List.replicate (vs.takeWhile survives).length t := by
  rw [List.take_replicate, Nat.min_eq_left (List.takeWhile_sublist ..).length_le]

/-- **Failure.** A lone number leaves the document alone, a container leaves the document of its trimmed version. -/
theorem left_failed (env : Env) (hfair : env.Fair) (H : Heap) : ∀ v t prev, HasTy env H v t → survives v = false →
    match trimmed env v t with
    | none => serLeft env v t [] [] prev = prev
    | some (w, u) => ∃ σ', ser env w u [] [] = .done σ' (some (serLeft env v t [] [] prev)) := by
  have h0 : AllSurvive H [] := fun a ha => by simp [STab.keys] at ha
  apply Val.strong
  intro v ih t prev ht hs
  unfold HasTy at ht
  split at ht
  · rename_i p k
    simp only [trimmed, serLeft]
    cases p with
    | flt f =>
      cases k with
      | flt t =>
        have hf : ¬ f.isFinite = true := by
          have : f.isFinite = false := hs
          simp [this]
        rw [serPrim_flt, if_neg hf]
      | _ => exact ht.elim
    | _ => simp [survives] at hs
  · rename_i vs t
    obtain ⟨σ', h⟩ := leftItems_trim env hfair H vs _ 0 [] [] (HasTys_replicate env H vs t ht) h0
    rw [take_replicate_while] at h
    exact ⟨σ', by simp only [ser, h, SRes.map, serLeft, Option.map_some]⟩
  · rename_i vs n t
    obtain ⟨rfl, ht⟩ := ht
    obtain ⟨σ', h⟩ := leftItems_trim env hfair H vs _ 0 [] [] (HasTys_replicate env H vs t ht) h0
    rw [take_replicate_while] at h
    exact ⟨σ', by simp only [ser, if_true, h, SRes.map, serLeft, Option.map_some]⟩
  · rename_i vs ts
    obtain ⟨σ', h⟩ := leftItems_trim env hfair H vs _ 0 [] [] ht h0
    exact ⟨σ', by simp only [ser, h, SRes.map, serLeft, Option.map_some]⟩
  · rename_i vs t
    obtain ⟨σ', h⟩ := leftSet_trim env hfair H t vs [] [] ((AllTy_iff _ _ _ _).1 ht.1) h0
    exact ⟨σ', by simp only [ser, h, SRes.map, serLeft, Option.map_some]⟩
  · rename_i kvs o t
    have hp := iterate_perm env hfair o [] kvs ht.2.nodup
    have hk := (ValsTy_iff _ _ _ _).1 ht.1
    obtain ⟨σ', h⟩ := leftEntries_trim env hfair H t (iterate env o [] kvs) [] [] (fun w hw => hk w (hp.mem_iff.1 hw)) h0
    exact ⟨σ', by simp only [ser, serVals_eq, h, SRes.map, serLeft, Option.map_some, iterate_map (g := fun p => ser env p.2 t)]⟩
  · rename_i kvs t
    obtain ⟨σ', h⟩ := leftEntries_trim env hfair H t kvs [] [] ((ValsTy_iff _ _ _ _).1 ht) h0
    exact ⟨σ', by simp only [ser, serVals_eq, h, SRes.map, serLeft, Option.map_some]⟩
  · rename_i i w ts
    obtain ⟨t, hi, ht⟩ := ht
    simp only [trimmed, hi, Option.bind_some, serLeft]
    exact ih w (by simp; omega) t prev ht hs
  · simp [survives] at hs
  · rename_i w t
    exact ih w (by simp) t prev ht hs
  · rename_i a w t
    exact ih w (by simp; omega) t prev ht.2 hs
  · exact ht.elim

theorem leftItems_all (env : Env) (vs : List Val) : ∀ ts k segs σ σ' js, serItems env vs ts k segs σ = .done σ' (some js) →
    leftItems env vs ts k segs σ = js := by
  induction vs with
  | nil =>
    intro ts k segs σ σ' js h
    cases ts with
    | cons => simp [serItems] at h
    | nil =>
      simp only [serItems, SRes.done.injEq, Option.some.injEq] at h
      simp [leftItems, ← h.2]
  | cons v vs ih =>
    intro ts k segs σ σ' js h
    cases ts with
    | nil => simp [serItems] at h
    | cons t ts =>
      simp only [serItems] at h
      simp only [leftItems]
      split at h
      · simp at h
      · simp at h
      · rename_i σ1 j h1
        cases h2 : serItems env vs ts (k + 1) segs σ1 with
        | ub => simp [h2, SRes.map] at h
        | done σ2 r =>
          cases r with
          | none => simp [h2, SRes.map] at h
          | some js' =>
            simp only [h2, SRes.map, Option.map_some, SRes.done.injEq, Option.some.injEq] at h
            simp only [h1, ih _ _ _ _ _ _ h2, h.2]

theorem leftSet_all (env : Env) (t : Ty) (vs : List Val) : ∀ segs σ σ' js, serSet env vs t segs σ = .done σ' (some js) →
    leftSet env vs t segs σ = js := by
  induction vs with
  | nil =>
    intro segs σ σ' js h
    simp only [serSet, SRes.done.injEq, Option.some.injEq] at h
    simp [leftSet, ← h.2]
  | cons v vs ih =>
    intro segs σ σ' js h
    simp only [serSet] at h
    simp only [leftSet]
    split at h
    · simp at h
    · simp at h
    · rename_i σ1 j h1
      cases h2 : serSet env vs t segs σ1 with
      | ub => simp [h2, SRes.map] at h
      | done σ2 r =>
        cases r with
        | none => simp [h2, SRes.map] at h
        | some js' =>
          simp only [h2, SRes.map, Option.map_some, SRes.done.injEq, Option.some.injEq] at h
          simp only [h1, ih _ _ _ _ h2, h.2]

theorem leftEntries_all (l : List (Str × SerFn)) : ∀ segs σ σ' js, serEntries l segs σ = .done σ' (some js) →
    leftEntries l segs σ = js := by
  induction l with
  | nil =>
    intro segs σ σ' js h
    simp only [serEntries, SRes.done.injEq, Option.some.injEq] at h
    simp [leftEntries, ← h.2]
  | cons p l ih =>
    obtain ⟨key, f⟩ := p
    intro segs σ σ' js h
    simp only [serEntries] at h
    simp only [leftEntries]
    split at h
    · simp at h
    · simp at h
    · rename_i σ1 j h1
      cases h2 : serEntries l segs σ1 with
      | ub => simp [h2, SRes.map] at h
      | done σ2 r =>
        cases r with
        | none => simp [h2, SRes.map] at h
        | some js' =>
          simp only [h2, SRes.map, Option.map_some, SRes.done.injEq, Option.some.injEq] at h
          simp only [h1, ih _ _ _ _ h2, h.2]

theorem map_done {α β : Type} {f : α → β} {r : SRes α} {σ : STab} {y : β} (h : r.map f = .done σ (some y)) :
    ∃ x, r = .done σ (some x) ∧ f x = y := by
  cases r with
  | ub => simp [SRes.map] at h
  | done σ1 o =>
    cases o with
    | none => simp [SRes.map] at h
    | some x =>
      simp only [SRes.map, Option.map_some, SRes.done.injEq, Option.some.injEq] at h
      obtain ⟨rfl, rfl⟩ := h
      exact ⟨x, rfl, rfl⟩

/-- **Success.** The destination holds the document, whatever it held before. -/
theorem left_document (env : Env) : ∀ v t segs σ σ' j prev, ser env v t segs σ = .done σ' (some j) →
    serLeft env v t segs σ prev = j := by
  apply Val.strong
  intro v ih t segs σ σ' j prev h
  unfold ser at h
  split at h
  · simp only [serLeft]
    split at h
    · simp at h
    · simp at h
    · rename_i h1
      simp only [SRes.done.injEq, Option.some.injEq] at h
      simp only [h1, h.2]
  · obtain ⟨js, h1, rfl⟩ := map_done h
    simp only [serLeft, leftItems_all _ _ _ _ _ _ _ _ h1]
  · split at h
    · obtain ⟨js, h1, rfl⟩ := map_done h
      simp only [serLeft, leftItems_all _ _ _ _ _ _ _ _ h1]
    · simp at h
  · obtain ⟨js, h1, rfl⟩ := map_done h
    simp only [serLeft, leftItems_all _ _ _ _ _ _ _ _ h1]
  · obtain ⟨js, h1, rfl⟩ := map_done h
    simp only [serLeft, leftSet_all _ _ _ _ _ _ _ h1]
  · obtain ⟨js, h1, rfl⟩ := map_done h
    simp only [serLeft, leftEntries_all _ _ _ _ _ h1]
  · obtain ⟨js, h1, rfl⟩ := map_done h
    simp only [serLeft, leftEntries_all _ _ _ _ _ h1]
  · simp only [serLeft]
    split at h
    · rename_i h1
      simp only [h1]
      exact ih _ (by simp; omega) _ _ _ _ _ _ h
    · simp at h
  · obtain ⟨js, h1, rfl⟩ := map_done h
    simp only [serLeft, h1]
  · simp only [serLeft]
    exact ih _ (by simp) _ _ _ _ _ _ h
  · simp only [serLeft]
    split at h
    · rename_i h1
      simp only [SRes.done.injEq, Option.some.injEq] at h
      simp only [h1, h.2]
    · rename_i h1
      simp only [h1]
      split at h
      · simp at h
      · simp at h
      · rename_i h2
        simp only [SRes.done.injEq, Option.some.injEq] at h
        rw [← h.2]
        exact ih _ (by simp; omega) _ _ _ _ _ _ h2
  · simp at h

/-! ## The writer -/

/-- The second run succeeds; the first one does the same, or stops where the second writes `x`. -/
def Shadows (x : Flt) (r r' : WRes) : Prop :=
  ∃ σ' es', r' = .done σ' true es' ∧
    (r = .done σ' true es' ∨ ∃ σ1 es more, r = .done σ1 false es ∧ es' = es ++ .num (.dbl x) :: more)

theorem Shadows.before {x : Flt} {r r' : WRes} (h : Shadows x r r') (pre : List Event) : Shadows x (r.before pre) (r'.before pre) := by
  obtain ⟨σ', es', rfl, rfl | ⟨σ1, es, more, rfl, rfl⟩⟩ := h
  · exact ⟨_, _, rfl, .inl rfl⟩
  · exact ⟨_, _, rfl, .inr ⟨_, _, more, rfl, by simp⟩⟩

theorem Shadows.close {x : Flt} {r r' : WRes} (h : Shadows x r r') (e : Event) : Shadows x (r.close e) (r'.close e) := by
  obtain ⟨σ', es', rfl, rfl | ⟨σ1, es, more, rfl, rfl⟩⟩ := h
  · exact ⟨_, _, rfl, .inl rfl⟩
  · exact ⟨_, _, rfl, .inr ⟨_, _, more ++ [e], rfl, by simp⟩⟩

/-- A part, and what comes after it. -/
theorem Shadows.seq {x : Flt} {r r' : WRes} (pre : List Event) {k k' : STab → WRes} (hk : ∀ σ, Shadows x (k σ) (k' σ)) :
    Shadows x r r' → Shadows x
      (match r with
      | .ub => .ub
      | .done σ false es => .done σ false (pre ++ es)
      | .done σ true es => (k σ).before (pre ++ es))
      (match r' with
      | .ub => .ub
      | .done σ false es => .done σ false (pre ++ es)
      | .done σ true es => (k' σ).before (pre ++ es)) := by
  rintro ⟨σ', es', rfl, rfl | ⟨σ1, es, more, rfl, rfl⟩⟩
  · exact (hk σ').before _
  · obtain ⟨σ2, es2, h2, -⟩ := hk σ'
    refine ⟨σ2, _, by simp only [h2]; rfl, .inr ⟨σ1, pre ++ es, more ++ es2, rfl, by simp⟩⟩

theorem patchAll_length (x : Flt) (vs : List Val) : (patchAll x vs).length = vs.length := by
  induction vs with
  | nil => rfl
  | cons v vs ih => simp [patchAll, ih]

theorem patchVals_eq (x : Flt) (kvs : List (Str × Val)) : patchVals x kvs = kvs.map fun p => (p.1, patch x p.2) := by
  induction kvs with
  | nil => rfl
  | cons p kvs ih => cases p; simp [patchVals, ih]

/-- The value and its patched version, written side by side. -/
def Paired (env : Env) (H : Heap) (x : Flt) (v : Val) : Prop :=
  ∀ t segs σ, HasTy env H v t → Shadows x (wr env v t segs σ) (wr env (patch x v) t segs σ)

theorem paired_items (env : Env) (H : Heap) (x : Flt) (vs : List Val) (hv : ∀ v ∈ vs, Paired env H x v) : ∀ ts k segs σ,
    HasTys env H vs ts → Shadows x (wrItems env vs ts k segs σ) (wrItems env (patchAll x vs) ts k segs σ) := by
  induction vs with
  | nil =>
    intro ts k segs σ ht
    cases ts with
    | cons => simp [HasTys] at ht
    | nil => exact ⟨σ, [], by simp [patchAll, wrItems], .inl (by simp [wrItems])⟩
  | cons v vs ih =>
    intro ts k segs σ ht
    cases ts with
    | nil => simp [HasTys] at ht
    | cons t ts =>
      simp only [HasTys] at ht
      simp only [patchAll, wrItems]
      exact Shadows.seq [] (fun σ1 => ih (fun w hw => hv w (by simp [hw])) ts (k + 1) segs σ1 ht.2) (hv v (by simp) t (.index k :: segs) σ ht.1)

theorem paired_set (env : Env) (H : Heap) (x : Flt) (t : Ty) (vs : List Val) (hv : ∀ v ∈ vs, Paired env H x v) : ∀ segs σ,
    (∀ v ∈ vs, HasTy env H v t) → Shadows x (wrSet env vs t segs σ) (wrSet env (patchAll x vs) t segs σ) := by
  induction vs with
  | nil => intro segs σ _; exact ⟨σ, [], by simp [patchAll, wrSet], .inl (by simp [wrSet])⟩
  | cons v vs ih =>
    intro segs σ ht
    simp only [patchAll, wrSet]
    exact Shadows.seq [] (fun σ1 => ih (fun w hw => hv w (by simp [hw])) segs σ1 fun w hw => ht w (by simp [hw]))
      (hv v (by simp) t segs σ (ht v (by simp)))

theorem paired_vals (env : Env) (H : Heap) (x : Flt) (t : Ty) (kvs : List (Str × Val)) (hv : ∀ p ∈ kvs, Paired env H x p.2) : ∀ segs σ,
    (∀ p ∈ kvs, HasTy env H p.2 t) → Shadows x (writeEntries (kvs.map fun p => (p.1, wr env p.2 t)) segs σ)
      (writeEntries (kvs.map fun p => (p.1, wr env (patch x p.2) t)) segs σ) := by
  induction kvs with
  | nil => intro segs σ _; exact ⟨σ, [], by simp [writeEntries], .inl (by simp [writeEntries])⟩
  | cons p kvs ih =>
    obtain ⟨key, v⟩ := p
    intro segs σ ht
    simp only [List.map_cons, writeEntries]
    exact Shadows.seq [.key key] (fun σ1 => ih (fun w hw => hv w (by simp [hw])) segs σ1 fun w hw => ht w (by simp [hw]))
      (hv (key, v) (by simp) t (Seg.name key :: segs) σ (ht (key, v) (by simp)))

theorem fieldOf_patch (x : Flt) (k : Kind) (v : Val) : fieldOf k (patch x v) =
    match fieldOf k v with
    | .skip => .skip
    | .bad => .bad
    | .here w => .here (patch x w) := by
  cases k with
  | optional => cases v with
    | prim p => cases p <;> simp [patch, fieldOf]
    | _ => simp [patch, fieldOf]
  | _ => simp [fieldOf]

theorem paired_members (env : Env) (H : Heap) (x : Flt) (vs : List Val) (hv : ∀ w, sizeOf w < 1 + sizeOf vs → Paired env H x w) :
    ∀ ms segs σ, MembersTy env H vs ms → Shadows x (wrMembers env vs ms segs σ) (wrMembers env (patchAll x vs) ms segs σ) := by
  induction vs with
  | nil =>
    intro ms segs σ ht
    cases ms with
    | cons => simp [MembersTy] at ht
    | nil => exact ⟨σ, [], by simp [patchAll, wrMembers], .inl (by simp [wrMembers])⟩
  | cons v vs ih =>
    intro ms segs σ ht
    have ih' := ih (fun w hw => hv w (by simp only [List.cons.sizeOf_spec]; omega))
    cases ms with
    | nil => simp [MembersTy] at ht
    | cons m ms =>
      rw [MembersTy_cons] at ht
      rw [patchAll, wrMembers_cons, wrMembers_cons, fieldOf_patch]
      cases hk : fieldOf m.kind v with
      | bad => simp [hk] at ht
      | skip => exact ih' ms segs σ ht.2
      | here w =>
        simp only [hk] at ht
        have hw : Paired env H x w := hv w (by have := fieldOf_size hk; simp only [List.cons.sizeOf_spec]; omega)
        exact Shadows.seq [.key m.name] (fun σ1 => ih' ms segs σ1 ht.2) (hw m.ty (Seg.name m.name :: segs) σ ht.1)

theorem paired (env : Env) (hfair : env.Fair) (H : Heap) (x : Flt) (hx : x.isFinite = true) : ∀ v, Paired env H x v := by
  apply Val.strong
  intro v ih t segs σ ht
  unfold HasTy at ht
  split at ht
  · rename_i p k
    have key : ∀ j, serPrim env k p = .ok j → patch x (.prim p) = .prim p →
        Shadows x (wr env (.prim p) (.prim k) segs σ) (wr env (patch x (.prim p)) (.prim k) segs σ) := by
      intro j hj hp
      rw [hp]
      exact ⟨σ, events j, by simp only [wr, hj], .inl (by simp only [wr, hj])⟩
    by_cases hf : finite (.prim p) = true
    · obtain ⟨j, hj⟩ := serPrim_ok env p k ht hf
      refine key j hj ?_
      cases p with
      | flt f => rw [patch, if_pos (show f.isFinite = true from hf)]
      | _ => rfl
    · cases p with
      | flt f =>
        cases k with
        | flt t =>
          have hf : ¬ f.isFinite = true := hf
          refine ⟨σ, [.num (.dbl x)], ?_, .inr ⟨σ, [], [], ?_, rfl⟩⟩
          · rw [patch, if_neg hf]
            simp only [wr, serPrim_flt, if_pos hx, events]
          · simp only [wr, serPrim_flt, if_neg hf]
        | _ => exact ht.elim
      | _ => simp [finite] at hf
  · rename_i vs t
    simp only [patch, wr, patchAll_length]
    exact ((paired_items env H x vs (fun w hw => ih w (by have := mem_size hw; simp; omega)) _ 0 segs σ
      (HasTys_replicate env H vs t ht)).before _).close _
  · rename_i vs n t
    obtain ⟨rfl, ht⟩ := ht
    simp only [patch, wr, patchAll_length, if_true]
    exact ((paired_items env H x vs (fun w hw => ih w (by have := mem_size hw; simp; omega)) _ 0 segs σ
      (HasTys_replicate env H vs t ht)).before _).close _
  · rename_i vs ts
    simp only [patch, wr]
    exact ((paired_items env H x vs (fun w hw => ih w (by have := mem_size hw; simp; omega)) _ 0 segs σ ht).before _).close _
  · rename_i vs t
    simp only [patch, wr]
    exact ((paired_set env H x t vs (fun w hw => ih w (by have := mem_size hw; simp; omega)) segs σ
      ((AllTy_iff _ _ _ _).1 ht.1)).before _).close _
  · rename_i kvs o t
    have hp := iterate_perm env hfair o segs kvs ht.2.nodup
    have hk := (ValsTy_iff _ _ _ _).1 ht.1
    have h := paired_vals env H x t (iterate env o segs kvs)
      (fun w hw => ih w.2 (by have := mem_size_kv (hp.mem_iff.1 hw); simp; omega)) segs σ (fun w hw => hk w (hp.mem_iff.1 hw))
    simp only [patch, wr, wrVals_eq, patchVals_eq, List.map_map, Function.comp_def]
    rw [iterate_map (g := fun p => wr env p.2 t), iterate_map (g := fun p => wr env (patch x p.2) t)]
    exact (h.before _).close _
  · rename_i kvs t
    have h := paired_vals env H x t kvs (fun w hw => ih w.2 (by have := mem_size_kv hw; simp; omega)) segs σ ((ValsTy_iff _ _ _ _).1 ht)
    simp only [patch, wr, wrVals_eq, patchVals_eq, List.map_map, Function.comp_def]
    exact (h.before _).close _
  · rename_i i w ts
    obtain ⟨t, hi, ht⟩ := ht
    simp only [patch, wr, hi]
    exact ih w (by simp; omega) t segs σ ht
  · rename_i vs c
    simp only [patch, wr]
    exact ((paired_members env H x vs (fun w hw => ih w (by simp; omega)) _ segs σ ht).before _).close _
  · rename_i w t
    simp only [patch, wr]
    exact ih w (by simp) t segs σ ht
  · rename_i a w t
    simp only [patch, wr]
    cases hg : σ.get a with
    | some s => exact ⟨σ, _, rfl, .inl rfl⟩
    | none =>
      obtain ⟨σ', es', h1, h2⟩ := ih w (by simp; omega) t segs σ ht.2
      simp only [h1]
      refine ⟨_, _, rfl, ?_⟩
      rcases h2 with h2 | ⟨σ1, es, more, h2, h3⟩
      · exact .inl (by simp only [h2])
      · exact .inr ⟨σ1, es, more, by simp only [h2], h3⟩
  · exact ht.elim

end Verif.Core
