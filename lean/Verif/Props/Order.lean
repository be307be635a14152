import Verif.Order
import Verif.Survive
import Verif.Props.Compact
import Verif.Props.Injective
import Verif.Props.Survive

/-!
# C93: the order of unordered maps

`env` and `env.iterating o` are the same program with two orders of iteration of its unordered maps.
-/

namespace Verif.Props
open Verif.Core Verif.Numeric Verif.Demo

/-- **C93 (partial).** If no shared object is reached twice then the two documents of a value differ in the order of members of
objects only, and these have pairwise distinct names. Missing: values with sharing (`C93_shared`). -/
theorem C93_document_partial (env : Env) (o : List Seg → List Str → List Str) (hfair : env.Fair) (hfair' : (env.iterating o).Fair) (H : Heap) (v : Val) (t : Ty)
    (ht : HasTy env H v t) (hf : finite v = true) (hn : (addrs v).Nodup) :
    ∃ doc doc', serializeToDocument env t v = some (some doc) ∧ serializeToDocument (env.iterating o) t v = some (some doc') ∧ Permuted doc doc' := by
  obtain ⟨n, j, tr, h1, h2, h3⟩ := serOk env hfair H v t [] [] [] ht hf
  obtain ⟨n', j', tr', h1', h2', h3'⟩ := serOk (env.iterating o) hfair' H v t [] [] [] ((iterating_ty env o H v t).2 ht) hf
  refine ⟨j, j', by simp [serializeToDocument, h1], by simp [serializeToDocument, h1'], ?_⟩
  exact shows_permuted env H v t [] [] j j' tr tr' ht h2 (iterating_shows env o h2') (noRefs_of_nodup h2 h3.good hn)
    (noRefs_of_nodup (iterating_shows env o h2') h3'.good hn)

/-- **C93.** Whether a value can be written does not depend on the order, for either serializer. -/
theorem C93_verdict (env : Env) (o : List Seg → List Str → List Str) (hfair : env.Fair) (hfair' : (env.iterating o).Fair) (H : Heap) (v : Val) (t : Ty)
    (ht : HasTy env H v t) (before : List Event) :
    ((∃ doc, serializeToDocument env t v = some (some doc)) ↔ ∃ doc, serializeToDocument (env.iterating o) t v = some (some doc)) ∧
    ∀ b, (∃ es, writeToString env t v before = some (b, es)) ↔ ∃ es, writeToString (env.iterating o) t v before = some (b, es) := by
  have ht' := (iterating_ty env o H v t).2 ht
  refine ⟨(C30_fails_iff env hfair H t v ht).2.trans (C30_fails_iff (env.iterating o) hfair' H t v ht').2.symm, fun b => ?_⟩
  obtain ⟨es, h1, -⟩ := C29_write_succeeds_iff_finite env hfair H t v ht before
  obtain ⟨es', h2, -⟩ := C29_write_succeeds_iff_finite (env.iterating o) hfair' H t v ht' before
  rw [h1, h2]
  simp

theorem distinct_list (l : List Nat) : ∃ as : List Nat, as.Nodup ∧ ∀ a, a ∈ as ↔ a ∈ l := by
  induction l with
  | nil => exact ⟨[], .nil, fun _ => Iff.rfl⟩
  | cons x l ih =>
    obtain ⟨as, h1, h2⟩ := ih
    by_cases h : x ∈ as
    · exact ⟨as, h1, fun a => ⟨fun ha => List.mem_cons_of_mem _ ((h2 a).1 ha), fun ha => by
        rcases List.mem_cons.1 ha with rfl | ha
        · exact h
        · exact (h2 a).2 ha⟩⟩
    · exact ⟨x :: as, List.nodup_cons.2 ⟨h, h1⟩, fun a => by rw [List.mem_cons, List.mem_cons, h2]⟩

/-- **C93.** The documents have equally many nodes, also with sharing. -/
theorem C93_size (env : Env) (o : List Seg → List Str → List Str) (hfair : env.Fair) (hfair' : (env.iterating o).Fair) (H : Heap) (v : Val) (t : Ty)
    (ht : HasTy env H v t) (hf : finite v = true) (doc doc' : Json) (h : serializeToDocument env t v = some (some doc))
    (h' : serializeToDocument (env.iterating o) t v = some (some doc')) : nodes doc = nodes doc' := by
  obtain ⟨as, hnd, ha⟩ := distinct_list (addrs v)
  obtain ⟨d, h1, h2⟩ := C80_nodes_exact env hfair H v t ht hf as hnd ha
  obtain ⟨d', h1', h2'⟩ := C80_nodes_exact (env.iterating o) hfair' H v t ((iterating_ty env o H v t).2 ht) hf as hnd ha
  rw [h] at h1
  rw [h'] at h1'
  cases h1
  cases h1'
  omega

/-- **C93.** Reading does not depend on the order of iteration, whatever is read. -/
theorem C93_reading (env : Env) (o : List Seg → List Str → List Str) (t : Ty) (doc : Json) (target : Val) (next : Nat) :
    deserializeBool (env.iterating o) t doc target next = deserializeBool env t doc target next ∧
    deserializeThrow (env.iterating o) t doc next = deserializeThrow env t doc next := by
  constructor
  · rw [deserializeBool, deserializeBool, iterating_deser]
  · rw [deserializeThrow, deserializeThrow, iterating_deser]
    rfl

/-- **C93 (partial).** Both documents are read back as the object graph that was written, by the program with either order, also with
sharing. The conditions are those of `C26_dom_roundtrip_partial`. -/
theorem C93_same_value_partial (env : Env) (o : List Seg → List Str → List Str) (hfair : env.Fair) (hfair' : (env.iterating o).Fair) (hclk : 0 < env.clk)
    (hdist : env.DistinctNames) (H : Heap) (v : Val) (t : Ty) (ht : HasTy env H v t) (hf : finite v = true) (hr : Readable env v t)
    (hs : addrs v ≠ [] → env.PlainNames ∧ PathSafe v) (doc doc' : Json) (h : serializeToDocument env t v = some (some doc))
    (h' : serializeToDocument (env.iterating o) t v = some (some doc')) (target : Val) (next : Nat) :
    ∃ w w', deserializeBool env t doc target next = some (true, w) ∧ deserializeBool env t doc' target next = some (true, w') ∧
      SameGraph v w ∧ SameGraph v w' ∧
      deserializeThrow env t doc next = .returned w ∧ deserializeThrow env t doc' next = .returned w' := by
  obtain ⟨d, h1, h2⟩ := C26_dom_roundtrip_partial env hfair hclk hdist H v t ht hf hr hs
  obtain ⟨d', h1', h2'⟩ := C26_dom_roundtrip_partial (env.iterating o) hfair' hclk hdist H v t ((iterating_ty env o H v t).2 ht) hf
    (iterating_readable env o v t hr) hs
  rw [h] at h1
  rw [h'] at h1'
  cases h1
  cases h1'
  obtain ⟨ρ, k1, k2, k3⟩ := h2 next
  obtain ⟨ρ', k1', k2', k3'⟩ := h2' next
  have k4 := k3' target
  rw [(C93_reading env o t doc' target next).1] at k4
  rw [(C93_reading env o t doc' target next).2] at k2'
  exact ⟨_, _, k3 target, k4, ⟨ρ, k1, rfl⟩, ⟨ρ', k1', rfl⟩, k2, k2'⟩

/-! ## Examples -/

/-- Ascending order instead of descending order. -/
def forth : List Seg → List Str → List Str := fun _ ks => ks

theorem forth_fair : (Demo.env.iterating forth).Fair := fun _ _ _ => .refl _

/-- `std::unordered_map<std::string, std::shared_ptr<Item>>` with two items -/
def pantry : Val := .map [(lit "a", .sptr 100 item7), (lit "b", .sptr 200 item8)]

theorem ty_pantry : HasTy Demo.env heap pantry (.map false (.sptr (.cls 1))) := by
  have h := ty_item7
  have h' := ty_item8
  simp only [pantry, HasTy, ValsTy, and_true]
  exact ⟨⟨⟨rfl, h⟩, ⟨rfl, h'⟩⟩, by unfold Ascending; decide +kernel⟩

example : ∃ doc doc', serializeToDocument Demo.env (.map false (.sptr (.cls 1))) pantry = some (some doc) ∧
    serializeToDocument (Demo.env.iterating forth) (.map false (.sptr (.cls 1))) pantry = some (some doc') ∧ Permuted doc doc' :=
  C93_document_partial Demo.env forth fair forth_fair heap _ _ ty_pantry rfl (by simp [pantry, addrs, addrsVals, addrsAll, item7, item8])

/-- The same item under both keys. -/
def doubled : Val := .map [(lit "a", .sptr 100 item7), (lit "b", .sptr 100 item7)]

theorem ty_doubled : HasTy Demo.env heap doubled (.map false (.sptr (.cls 1))) := by
  have h := ty_item7
  simp only [doubled, HasTy, ValsTy, and_true]
  exact ⟨⟨⟨rfl, h⟩, ⟨rfl, h⟩⟩, by unfold Ascending; decide +kernel⟩

/-- The document of `Item{7, "ok", 2}`. -/
def itemDoc : Json := .obj [(lit "id", .num (.int 7)), (lit "note", .str (lit "ok")), (lit "count", .num (.int 2))]

theorem doubled_back : serializeToDocument Demo.env (.map false (.sptr (.cls 1))) doubled =
    some (some (.obj [(lit "b", itemDoc), (lit "a", .obj [(lit "$ref", .str (lit "/b"))])])) := by with_unfolding_all rfl

theorem doubled_forth : serializeToDocument (Demo.env.iterating forth) (.map false (.sptr (.cls 1))) doubled =
    some (some (.obj [(lit "a", itemDoc), (lit "b", .obj [(lit "$ref", .str (lit "/a"))])])) := by with_unfolding_all rfl

theorem permuted_fields {ms ms' : List (Str × Json)} (h : PermutedFields ms ms') : ∀ k j, (k, j) ∈ ms → ∃ j', (k, j') ∈ ms' ∧ Permuted j j' := by
  induction ms generalizing ms' with
  | nil => intro k j hm; cases hm
  | cons p ms ih =>
    intro k j hm
    cases h with
    | cons h1 h2 =>
      rcases List.mem_cons.1 hm with hm | hm
      · cases hm
        exact ⟨_, by simp, h1⟩
      · obtain ⟨j', h3, h4⟩ := ih h2 k j hm
        exact ⟨j', by simp [h3], h4⟩

theorem permuted_member {ms ms' : List (Str × Json)} (h : Permuted (.obj ms) (.obj ms')) (k : Str) (j : Json) (hm : (k, j) ∈ ms) :
    ∃ j', (k, j') ∈ ms' ∧ Permuted j j' := by
  cases h with
  | same => exact ⟨j, hm, .same j⟩
  | fields h => exact permuted_fields h k j hm
  | obj _ hp h => exact permuted_fields h k j (hp.mem_iff.1 hm)

/-- **C93, negation.** With an object under two keys of an unordered map the order decides which entry holds the object and which
the reference: the documents of the same value differ not only in the order of members. -/
theorem C93_shared : HasTy Demo.env heap doubled (.map false (.sptr (.cls 1))) ∧
    ∃ doc doc', serializeToDocument Demo.env (.map false (.sptr (.cls 1))) doubled = some (some doc) ∧
      serializeToDocument (Demo.env.iterating forth) (.map false (.sptr (.cls 1))) doubled = some (some doc') ∧ ¬ Permuted doc doc' := by
  refine ⟨ty_doubled, _, _, doubled_back, doubled_forth, fun h => ?_⟩
  obtain ⟨j', h1, h2⟩ := permuted_member h (lit "b") itemDoc (by simp)
  have h3 : j' = .obj [(lit "$ref", .str (lit "/a"))] := by
    simp only [List.mem_cons, Prod.mk.injEq, List.not_mem_nil, or_false] at h1
    rcases h1 with ⟨h1, -⟩ | ⟨-, h1⟩
    · exact absurd h1 (by decide)
    · exact h1
  subst h3
  obtain ⟨j'', h4, -⟩ := permuted_member h2 (lit "id") (.num (.int 7)) (by simp)
  simp only [List.mem_cons, Prod.mk.injEq, List.not_mem_nil, or_false] at h4
  exact absurd h4.1 (by decide)

/-- Both documents are read as a map with one item under two keys. -/
example : ∃ w w', deserializeBool Demo.env (.map false (.sptr (.cls 1)))
      (.obj [(lit "b", itemDoc), (lit "a", .obj [(lit "$ref", .str (lit "/b"))])]) .nullptr 0 = some (true, w) ∧
    deserializeBool Demo.env (.map false (.sptr (.cls 1)))
      (.obj [(lit "a", itemDoc), (lit "b", .obj [(lit "$ref", .str (lit "/a"))])]) .nullptr 0 = some (true, w') ∧ SameGraph doubled w ∧ SameGraph doubled w' := by
  have hr : Readable Demo.env doubled (.map false (.sptr (.cls 1))) := by
    have h : Readable Demo.env item7 (.cls 1) := by
      simp only [item7, Readable, Env.members, Demo.env, item, ReadableMembers.eq_def, LeafGood, and_true]
    simp only [doubled, Readable, ReadableVals, Ty.topShared, true_and, and_true]
    exact ⟨⟨by decide, by decide, h⟩, ⟨by decide, by decide, h⟩⟩
  obtain ⟨w, w', h1, h2, h3, h4, -⟩ := C93_same_value_partial Demo.env forth fair forth_fair (by decide) demo_distinct heap doubled _ ty_doubled rfl hr
    (fun _ => ⟨demo_plain, by simp only [doubled, PathSafe, PathSafeVals, item7, PathSafeAll, and_true, true_and, PlainName]; decide⟩) _ _ doubled_back doubled_forth .nullptr 0
  exact ⟨w, w', h1, h2, h3, h4⟩

end Verif.Props
