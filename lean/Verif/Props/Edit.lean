import Verif.TextLemmas
import Verif.Props.Agree
import Verif.Edit
import Verif.Props.ParseMore

/-!
# C95: a change at one place of a document is a change at one place of the value

`Edits env P t0 a b va vb t j j' v v'` says that the documents `j` and `j'`, and the values `v` and `v'`, differ at one place only, where they have `a` and `b`,
and `va` and `vb`.
-/

namespace Verif.Props
open Verif.Core Verif.Numeric Verif.EnumConv Verif.Demo

/-- **C95, reading.** Replace one node of a document by a node that denotes some value. If the document was read, then the new document is read too, and the result
differs only in the component that the node stands for, which is the value that the new node denotes.

For an element of a set: the set of the other elements, as they stand in the array, and of the new one (the old one may be there another time).

Missing: nodes inside of variants (`C95_variant`), members that are there twice (`C95_duplicate`), and shared pointers. -/
theorem C95_read_partial (env : Env) (hu : env.Unshared) (hd : env.DistinctNames) (t0 : Ty) (h0 : t0.unshared = true) (a b : Json) (va vb : Val)
    (hb : Decodes env t0 b (env.fresh t0) vb) (hf : Filled env t0 b) (hc : Calm env b) (hm : VariantsUnmasked env t0 b)
    (t : Ty) (ht : t.unshared = true) (j j' : Json) (v v' : Val) (he : Edits env False t0 a b va vb t j j' v v') (next : Nat)
    (h : deserializeThrow env t j next = .returned v) :
    deserializeThrow env t j' next = .returned v' ∧ deserializeBool env t j' (env.fresh t) next = some (true, v') := by
  have := edit_read hu hd t0 h0 a b va vb hb hf hc hm he ht next h
  exact ⟨this, C34_returned_accepted env hu t ht j' next v' this⟩

/-- `{"a": [{"id": 1, "count": n}], "b": []}` -/
def shelves (n : Int) : Json := .obj [(lit "a", .arr [.obj [(lit "id", .num (.int 1)), (lit "count", .num (.int n))]]), (lit "b", .arr [])]

/-- What it denotes. -/
def shelvesVal (n : Int) : Val := .map [(lit "a", .seq [.obj [.prim (.int 1), .absent, .prim (.int n)]]), (lit "b", .seq [])]

theorem shelves_edit (P : Prop) (n m : Int) :
    Edits plainEnv P tInt (.num (.int n)) (.num (.int m)) (.prim (.int n)) (.prim (.int m)) (.map true (.vec (.cls 1))) (shelves n) (shelves m) (shelvesVal n) (shelvesVal m) := by
  refine .map true _ _ _ 0 (lit "a") _ (.arr [.obj [(lit "id", .num (.int 1)), (lit "count", .num (.int m))]]) _ (.seq [.obj [.prim (.int 1), .absent, .prim (.int m)]]) rfl (by show [lit "a", lit "b"].Nodup; decide) rfl (by show [lit "a", lit "b"].Nodup; decide)
    (List.mem_cons_self ..) ?_
  refine .vec _ _ _ 0 _ (.obj [(lit "id", .num (.int 1)), (lit "count", .num (.int m))]) _ (.obj [.prim (.int 1), .absent, .prim (.int m)]) rfl rfl ?_
  exact .member 1 _ _ 2 ⟨lit "count", .default, tInt⟩ 1 _ _ _ _ rfl (by decide) rfl rfl .here

example (m : Int) (hm : int32.InRange m) (next : Nat) : deserializeThrow plainEnv (.map true (.vec (.cls 1))) (shelves m) next = .returned (shelvesVal m) :=
  (C95_read_partial plainEnv plainEnv_unshared plain_distinct tInt rfl (.num (.int 5)) (.num (.int m)) (.prim (.int 5)) (.prim (.int m)) (.prim _ _ _ _ (.int _ m hm))
    (fun c fields hp => by rcases Part.head hp with ⟨h, -⟩ | ⟨_, _, h, -⟩ <;> cases h) trivial (Unmasked.prim plainEnv _ _).variants
    _ rfl _ _ _ _ (shelves_edit False 5 m) next (by with_unfolding_all rfl)).1

example (m : Int) (hm : int32.InRange m) (next : Nat) :
    deserializeThrow plainEnv (.vec (.set tInt)) (.arr [.arr [], .arr [.num (.int 3), .num (.int 1), .num (.int m)]]) next =
      .returned (.seq [.set [], .set (setOf plainEnv.less [.prim (.int 3), .prim (.int 1), .prim (.int m)])]) :=
  (C95_read_partial plainEnv plainEnv_unshared plain_distinct tInt rfl (.num (.int 3)) (.num (.int m)) (.prim (.int 3)) (.prim (.int m)) (.prim _ _ _ _ (.int _ m hm))
    (fun c fields hp => by rcases Part.head hp with ⟨h, -⟩ | ⟨_, _, h, -⟩ <;> cases h) trivial (Unmasked.prim plainEnv _ _).variants
    (.vec (.set tInt)) rfl (.arr [.arr [], .arr [.num (.int 3), .num (.int 1), .num (.int 3)]]) _
    (.seq [.set [], .set (setOf plainEnv.less [.prim (.int 3), .prim (.int 1), .prim (.int 3)])]) _
    (.vec _ _ _ 1 _ (.arr [.num (.int 3), .num (.int 1), .num (.int m)]) _ (.set (setOf plainEnv.less [.prim (.int 3), .prim (.int 1), .prim (.int m)])) rfl rfl
      (.setRead _ _ [.prim (.int 3), .prim (.int 1), .prim (.int 3)] 2 (.num (.int 3)) _ (.prim (.int 3)) _ id
        (.cons _ _ _ _ _ (.prim _ _ _ _ (.int _ 3 (by decide))) (.cons _ _ _ _ _ (.prim _ _ _ _ (.int _ 1 (by decide))) (.cons _ _ _ _ _ (.prim _ _ _ _ (.int _ 3 (by decide))) (.nil _))))
        (by simp only [List.forall_mem_cons]
            exact ⟨⟨trivial, (Unmasked.prim plainEnv _ _).variants⟩, ⟨trivial, (Unmasked.prim plainEnv _ _).variants⟩, ⟨trivial, (Unmasked.prim plainEnv _ _).variants⟩, nofun⟩)
        rfl rfl .here)) next (by with_unfolding_all rfl)).1

/-- **C95, nodes inside of variants.** The new node may make an earlier alternative match: `70000` is read as the second alternative of `std::variant<int16_t, int>`, and `5` as the first one,
although it denotes 5 for the type of the second one. -/
theorem C95_variant : ∃ (env : Env) (ts : List Ty) (i : Nat) (t : Ty) (a b : Json) (va vb : Val), env.Unshared ∧ env.DistinctNames ∧ ts[i]? = some t ∧
    deserializeThrow env (.variant ts) a 0 = .returned (.alt i va) ∧ deserializeThrow env t b 0 = .returned vb ∧
    deserializeThrow env (.variant ts) b 0 ≠ .returned (.alt i vb) :=
  ⟨plainEnv, [.prim (.int ⟨.w16, true⟩), tInt], 1, tInt, .num (.int 70000), .num (.int 5), .prim (.int 70000), .prim (.int 5), plainEnv_unshared, plain_distinct, rfl,
    by with_unfolding_all rfl, by with_unfolding_all rfl, by
      have : deserializeThrow plainEnv (.variant [.prim (.int ⟨.w16, true⟩), tInt]) (.num (.int 5)) 0 = .returned (.alt 0 (.prim (.int 5))) := by with_unfolding_all rfl
      rw [this]
      simp⟩

/-- **C95, members that are there twice.** Of two entries of a map with the same key, the later one counts; a change of the earlier one is not seen. -/
theorem C95_duplicate : ∃ (env : Env) (t : Ty) (k : Str) (a b c : Json) (vb : Val), env.Unshared ∧ env.DistinctNames ∧ deserializeThrow env t b 0 = .returned vb ∧
    deserializeThrow env (.map true t) (.obj [(k, b), (k, c)]) 0 = deserializeThrow env (.map true t) (.obj [(k, a), (k, c)]) 0 ∧
    deserializeThrow env (.map true t) (.obj [(k, b), (k, c)]) 0 ≠ .returned (.map [(k, vb)]) :=
  ⟨plainEnv, tInt, lit "k", .num (.int 1), .num (.int 2), .num (.int 3), .prim (.int 2), plainEnv_unshared, plain_distinct, by with_unfolding_all rfl, by with_unfolding_all rfl, by
    have : deserializeThrow plainEnv (.map true tInt) (.obj [(lit "k", .num (.int 2)), (lit "k", .num (.int 3))]) 0 = .returned (.map [(lit "k", .prim (.int 3))]) := by with_unfolding_all rfl
    rw [this]
    simp⟩

/-- **C95, writing.** Replace one component of a value by another one. If `a` is written for the old component and `b` for the new one, neither of which has shared
objects that come up for the first time, then the new value is written like the old one but for `b` in place of `a`. Everything else may have shared objects; the component may
itself be inside of a shared object that is used once.

Missing: components inside of shared objects that are used several times. -/
theorem C95_write_partial (env : Env) (hd : env.DistinctNames) (hfair : env.Fair) (t0 : Ty) (a b : Json) (va vb : Val)
    (ha : ∀ segs σ, ser env va t0 segs σ = .done σ (some a)) (hb : ∀ segs σ, ser env vb t0 segs σ = .done σ (some b))
    (t : Ty) (j j' : Json) (v v' : Val) (he : Edits env True t0 a b va vb t j j' v v') (h : serializeToDocument env t v = some (some j)) :
    serializeToDocument env t v' = some (some j') := by
  unfold serializeToDocument at h ⊢
  split at h
  · cases h
  · rename_i σ r hs
    cases h
    rw [edit_write hd hfair t0 a b va vb (fun segs σ σ' h => by rw [ha] at h; cases h; exact hb segs σ) he _ _ _ hs]

/-- A pair of an object with two pointers to the same item, and of a variant that has an integer. -/
def besideVal (n : Int) : Val := .tup [.obj [.sptr 100 item7, .sptr 100 item7], .alt 0 (.prim (.int n))]

/-- What is written for it. -/
def besideDoc (n : Int) : Json := .arr [.obj [(lit "left", .obj [(lit "id", .num (.int 7)), (lit "note", .str (lit "ok")), (lit "count", .num (.int 2))]),
  (lit "right", .obj [(lit "$ref", .str (lit "/0/left"))])], .num (.int n)]

example (m : Int) : serializeToDocument Demo.env (.tuple [.cls 2, .variant [tInt, tStr]]) (besideVal m) = some (some (besideDoc m)) :=
  C95_write_partial Demo.env demo_distinct fair tInt (.num (.int 5)) (.num (.int m)) (.prim (.int 5)) (.prim (.int m)) (fun segs σ => by rw [ser]; rfl) (fun segs σ => by rw [ser]; rfl)
    (.tuple [.cls 2, .variant [tInt, tStr]]) (besideDoc 5) (besideDoc m) (besideVal 5) (besideVal m)
    (.tuple _ _ _ 1 (.variant [tInt, tStr]) _ (.num (.int m)) _ (.alt 0 (.prim (.int m))) rfl rfl rfl (.variant _ 0 tInt _ _ _ _ trivial rfl .here)) (by with_unfolding_all rfl)

/-- `std::vector<std::pair<std::string, std::shared_ptr<std::set<int>>>>`: an element of a set in a shared object in a dictionary. -/
example (m : Int) : serializeToDocument Demo.env (.dict (.sptr (.set tInt))) (.dict [(lit "a", .sptr 1 (.set [.prim (.int 1), .prim (.int m)]))]) =
    some (some (.obj [(lit "a", .arr [.num (.int 1), .num (.int m)])])) :=
  C95_write_partial Demo.env demo_distinct fair tInt (.num (.int 5)) (.num (.int m)) (.prim (.int 5)) (.prim (.int m)) (fun segs σ => by rw [ser]; rfl) (fun segs σ => by rw [ser]; rfl)
    (.dict (.sptr (.set tInt))) (.obj [(lit "a", .arr [.num (.int 1), .num (.int 5)])]) _ (.dict [(lit "a", .sptr 1 (.set [.prim (.int 1), .prim (.int 5)]))]) _
    (.dictObj _ _ _ 0 (lit "a") _ (.arr [.num (.int 1), .num (.int m)]) _ (.sptr 1 (.set [.prim (.int 1), .prim (.int m)])) trivial rfl rfl
      (.shared _ _ _ _ _ _ trivial rfl (.set _ _ _ 1 _ _ _ _ trivial rfl rfl .here))) (by with_unfolding_all rfl)

/-- **C95, the streaming writer.** The same for the text. -/
theorem C95_text_partial (env : Env) (hd : env.DistinctNames) (hfair : env.Fair) (t0 : Ty) (a b : Json) (va vb : Val)
    (ha : ∀ segs σ, ser env va t0 segs σ = .done σ (some a)) (hb : ∀ segs σ, ser env vb t0 segs σ = .done σ (some b))
    (t : Ty) (j j' : Json) (v v' : Val) (he : Edits env True t0 a b va vb t j j' v v') (H : Heap) (ht : HasTy env H v' t) (hf : finite v' = true)
    (before : List Event) (h : writeToString env t v before = some (true, events j)) : writeToString env t v' before = some (true, events j') := by
  obtain ⟨j0, h1, h2⟩ := C28_same_text_partial env t v before _ h
  rw [Verif.Text.events_inj _ _ h2] at h1
  have h3 := C95_write_partial env hd hfair t0 a b va vb ha hb t j j' v v' he h1
  obtain ⟨es, h4, -⟩ := C29_write_succeeds_iff_finite env hfair H t v' ht before
  rw [hf] at h4
  obtain ⟨j1, h5, rfl⟩ := C28_same_text_partial env t v' before es h4
  rw [h3] at h5
  cases h5
  exact h4

example (m : Int) (hm : int32.InRange m) : writeToString Demo.env (.tuple [.set tInt, .vec tInt]) (.tup [.set [.prim (.int 1)], .seq [.prim (.int 2), .prim (.int m)]]) [] =
    some (true, events (.arr [.arr [.num (.int 1)], .arr [.num (.int 2), .num (.int m)]])) :=
  C95_text_partial Demo.env demo_distinct fair tInt (.num (.int 5)) (.num (.int m)) (.prim (.int 5)) (.prim (.int m)) (fun segs σ => by rw [ser]; rfl) (fun segs σ => by rw [ser]; rfl)
    (.tuple [.set tInt, .vec tInt]) (.arr [.arr [.num (.int 1)], .arr [.num (.int 2), .num (.int 5)]]) _ (.tup [.set [.prim (.int 1)], .seq [.prim (.int 2), .prim (.int 5)]]) _
    (.tuple _ _ _ 1 (.vec tInt) _ (.arr [.num (.int 2), .num (.int m)]) _ (.seq [.prim (.int 2), .prim (.int m)]) rfl rfl rfl (.vec _ _ _ 1 _ _ _ _ rfl rfl .here))
    (fun _ => none) ⟨⟨⟨(by decide : int32.InRange 1), trivial⟩, by simp⟩, ⟨(by decide : int32.InRange 2), hm, trivial⟩, trivial⟩ rfl [] (by with_unfolding_all rfl)

/-- **C95, the streaming parser.** Documents for which the two readers agree (C61): a document that is parsed is parsed also when a node of it is replaced, and only the
component that the node stands for is changed. -/
theorem C95_parse_partial (env : Env) (hu : env.Unshared) (hd : env.DistinctNames) (hctor : env.BlankCtor) (host : Host) (G : Nat → Prop) (hG : StreamableClasses env G)
    (htab : TablesBuilt env host) (d : Nat) (hroom : Roomy host d) (t0 : Ty) (h0 : t0.unshared = true) (a b : Json) (va vb : Val)
    (hb : Decodes env t0 b (env.fresh t0) vb) (hf : Filled env t0 b) (hm : VariantsUnmasked env t0 b) (hcb : Calm env b)
    (t : Ty) (hs : Streamable G t) (ht : t.unshared = true) (hbl : Blank env t (env.fresh t)) (j j' : Json) (v v' : Val) (he : Edits env False t0 a b va vb t j j' v v')
    (hdep : j.depth ≤ d) (hp : j.proper = true) (hc : Calm env j) (hcom : Common env t j)
    (hdep' : j'.depth ≤ d) (hp' : j'.proper = true) (hc' : Calm env j') (hcom' : Common env t j') (n : Nat)
    (h : parseThrow env host t (.document j) n = .returned v) : parseThrow env host t (.document j') n = .returned v' := by
  rw [C61_same_returned_partial env hu hd hctor host G hG htab d hroom t hs ht j hdep hp hc hcom hbl n n v] at h
  rw [C61_same_returned_partial env hu hd hctor host G hG htab d hroom t hs ht j' hdep' hp' hc' hcom' hbl n n v']
  exact (C95_read_partial env hu hd t0 h0 a b va vb hb hf hcb hm t ht j j' v v' he n h).1

theorem proper_twoTrees (m : Int) (hm : int32.InRange m) : (twoTrees (.num (.int m))).proper = true := by
  have h1 : i64.min ≤ m := by have := hm.1; have h : i64.min ≤ int32.min := by decide
                              omega
  have h2 : m ≤ u64.max := by have := hm.2; have h : int32.max ≤ u64.max := by decide
                              omega
  simp [twoTrees, Json.proper, Json.properFields, Json.properAll, h1, h2]
  decide

example (m : Int) (hm : int32.InRange m) (n : Nat) : parseThrow plainEnv host (.cls 4) (.document (twoTrees (.num (.int m)))) n =
    .returned (.obj [.prim (.int m), .seq [.obj [.prim (.int 2), .seq []]]]) :=
  C95_parse_partial plainEnv plainEnv_unshared plain_distinct plain_blank_ctor host streamed plain_streamable plain_built 100 host_roomy
    tInt rfl (.num (.int 1)) (.num (.int m)) (.prim (.int 1)) (.prim (.int m)) (.prim _ _ _ _ (.int _ m hm))
    (fun c fields hp => by rcases Part.head hp with ⟨h, -⟩ | ⟨_, _, h, -⟩ <;> cases h) (Unmasked.prim plainEnv _ _).variants trivial
    (.cls 4) (.inr (.inr rfl)) rfl (plain_blank_ctor _) (twoTrees (.num (.int 1))) _ (.obj [.prim (.int 1), .seq [.obj [.prim (.int 2), .seq []]]]) _
    (.member 4 _ _ 0 ⟨lit "value", .required, tInt⟩ 1 _ _ _ _ rfl (by decide) rfl rfl .here)
    (by decide +kernel) (by decide +kernel) (by simp [twoTrees, Calm, CalmFields, CalmAll]) (treeDoc_common _ (twoTrees_doc _))
    (by simp [Json.depth, Json.depthFields, Json.depthAll]) (proper_twoTrees m hm) (by simp [Calm, CalmFields, CalmAll]) (treeDoc_common _ (twoTrees_doc _)) n (by with_unfolding_all rfl)

end Verif.Props
