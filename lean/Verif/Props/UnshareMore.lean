import Verif.UnshareWrite
import Verif.Props.Unshare
import Verif.Props.Widen

/-!
# C87: shared pointers without sharing are written like unique pointers, and what this and C84 give for C38 and C77
-/

namespace Verif.Props
open Verif.Core Verif.Numeric Verif.Demo

/-! ## C87 -/

/-- **C87.** If no two shared pointers of a value refer to the same object, the document is that of the value with unique pointers, also if
numbers cannot be written. For all types, with sets of pointers and variants. -/
theorem C87_document (env : Env) (hfair : env.Fair) (H : Heap) (t : Ty) (v : Val) (hty : HasTy env H v t) (hd : (addrs v).Nodup) :
    ∃ r, serializeToDocument env t v = some r ∧ serializeToDocument env.lower t.lower v.lower = some r := by
  have he := ser_ends env H v t hty [] []
  cases hr : ser env v t [] [] with
  | ub => rw [hr] at he; exact he.elim
  | done σ r =>
    exact ⟨r, by rw [serializeToDocument, hr], by rw [serializeToDocument, (ser_low env H hfair v t hty [] [] [] (fun _ _ => rfl) hd σ r hr).1]⟩

/-- **C87.** The same for the writer: success or failure, and the string. -/
theorem C87_text (env : Env) (hfair : env.Fair) (H : Heap) (t : Ty) (v : Val) (hty : HasTy env H v t) (hd : (addrs v).Nodup) (before : List Event) :
    writeToString env.lower t.lower v.lower before = writeToString env t v before := by
  obtain ⟨es, h, -⟩ := C29_write_succeeds_iff_finite env hfair H t v hty before
  cases hr : wr env v t [] [] with
  | ub => rw [writeToString, hr] at h; cases h
  | done σ ok es =>
    rw [writeToString, writeToString, hr, (wr_low env H hfair v t hty [] [] [] (fun _ _ => rfl) hd σ ok es hr).1]
    cases ok <;> rfl

/-- `[{"left": {"id": 7 …}, "right": {"id": 8 …}}]` -/
def couple : Val := .seq [.obj [.sptr 100 item7, .sptr 200 item8]]

theorem ty_couple : HasTy Demo.env heap couple (.vec (.cls 2)) := by
  have h := ty_crowd
  simp only [crowd, HasTy, AllTy] at h
  simp only [couple, HasTy, AllTy]
  exact ⟨h.1, trivial⟩

example (before : List Event) : writeToString Demo.env.lower (.vec (.cls 2)) (.seq [.obj [.uptr item7, .uptr item8]]) before =
    writeToString Demo.env (.vec (.cls 2)) couple before :=
  C87_text Demo.env fair heap (.vec (.cls 2)) couple ty_couple (by decide) before

example : serializeToDocument Demo.env.lower (.vec (.cls 2)) (.seq [.obj [.uptr item7, .uptr item8]]) =
    some (some (.arr [.obj [(lit "left", .obj [(lit "id", .num (.int 7)), (lit "note", .str (lit "ok")), (lit "count", .num (.int 2))]),
      (lit "right", .obj [(lit "id", .num (.int 8)), (lit "count", .num (.int 0))])]])) :=
  by
    obtain ⟨r, h1, h2⟩ := C87_document Demo.env fair heap (.vec (.cls 2)) couple ty_couple (by decide)
    cases (show serializeToDocument Demo.env (.vec (.cls 2)) couple = some (some _) from rfl).symm.trans h1
    exact h2

/-- **C87, where objects are shared.** With unique pointers to copies the document is another one: it has no reference. -/
theorem C87_shared : ∃ v doc doc', HasTy Demo.env heap v (.vec (.sptr (.cls 1))) ∧ serializeToDocument Demo.env (.vec (.sptr (.cls 1))) v = some (some doc) ∧
    serializeToDocument Demo.env.lower (.vec (.uptr (.cls 1))) v.lower = some (some doc') ∧ doc ≠ doc' := by
  refine ⟨.seq [.sptr 200 item8, .sptr 200 item8], .arr [.obj [(lit "id", .num (.int 8)), (lit "count", .num (.int 0))], .obj [(lit "$ref", .str (lit "/0"))]],
    _, ?_, rfl, rfl, by simp⟩
  have := item_ty heap
  simp only [HasTy, AllTy, this, and_true]
  exact ⟨rfl, rfl⟩

/-! ## C38 with shared pointers -/

/-- **C38, streaming parser, all types of C42.** Permuting the members of the objects of a document, at any depth, changes neither whether
the document is accepted nor the value read, but for the addresses of the objects; there is a separate object for each pointer (`C84_own_parse_partial`).

Missing: variants, host limits (C42), sets of pointers. -/
theorem C38_parser_shared_partial (env : Env) (hb : env.Bare) (host : Host) (G : Nat → Prop) (hG : StreamableClasses env G) (ht : TablesBuilt env host)
    (d : Nat) (hroom : Roomy host d) (t : Ty) (hs : Streamable G t) (j j' : Json) (hr : Reorder j j') (hd : j.depth ≤ d) (hd' : j'.depth ≤ d)
    (hp : j.proper = true) (hp' : j'.proper = true) (target : Val) (n n' : Nat) (u : Val) :
    (∃ v, parseBool env host t (.document j) target n = .accepted v ∧ v.lower = u) ↔
      ∃ v, parseBool env host t (.document j') target n' = .accepted v ∧ v.lower = u := by
  have h1 := C84_parse_partial env hb host G hG ht d hroom t hs j hd hp target n 0
  have h2 := C84_parse_partial env hb host G hG ht d hroom t hs j' hd' hp' target n' 0
  have h3 := C38_parser_order env.lower (lower_env_unshared env) host (lower_tables ht) t.lower (lower_unshared t) j j' hr target.lower u 0
  rw [h1, h2] at h3
  have key : ∀ r : ParseBool, (∃ v, r = .accepted v ∧ v.lower = u) ↔ ParseBool.lower r = .accepted u := by
    intro r
    cases r <;> simp [ParseBool.lower]
  rw [key, key, h3]

/-- `[{"note": "a", "id": 1}]` with its members in either order, as a vector of shared pointers. -/
example (n n' : Nat) (u : Val) :
    (∃ v, parseBool bareEnv host (.vec (.sptr (.cls 1))) (.document (.arr [.obj [(lit "note", .str (lit "a")), (lit "id", .num (.int 1))]])) (.seq []) n = .accepted v ∧ v.lower = u) ↔
    ∃ v, parseBool bareEnv host (.vec (.sptr (.cls 1))) (.document (.arr [.obj [(lit "id", .num (.int 1)), (lit "note", .str (lit "a"))]])) (.seq []) n' = .accepted v ∧ v.lower = u :=
  C38_parser_shared_partial bareEnv bare host streamed streamable_classes tables_built 100 host_roomy (.vec (.sptr (.cls 1))) ⟨rfl, .inr (.inl rfl)⟩ _ _
    (.arr _ _ (.cons _ _ _ _ (.obj _ _ _ (by decide) (.swap ..) (.cons _ _ _ _ _ (.same _) (.cons _ _ _ _ _ (.same _) .nil))) .nil))
    (by decide +kernel) (by decide +kernel) (by decide +kernel) (by decide +kernel) (.seq []) n n' u

example : ∃ v, parseBool bareEnv host (.vec (.sptr (.cls 1))) (.document (.arr [.obj [(lit "note", .str (lit "a")), (lit "id", .num (.int 1))]])) (.seq []) 7 = .accepted v := ⟨_, rfl⟩

/-- **C38, DOM reader, all types.** On documents without references, in which no object has a bad member in front of a good one: permuting the members
changes neither the verdict nor the value, but for the addresses of the objects.

Missing: as in `C38_dom_deep_partial`; references (whose paths go to other nodes then), sets of pointers. -/
theorem C38_dom_shared_partial (env : Env) (hb : env.Bare) (t : Ty) (root root' : Json) (hs : Shuffle root root') (hn : root.noRef) (hn' : root'.noRef)
    (hc : Calm env root) (hc' : Calm env root') (hun : Unmasked env.lower t.lower root) (hun' : Unmasked env.lower t.lower root') (target : Val)
    (next next' : Nat) (u : Val) :
    ((∃ v, deserializeBool env t root target next = some (true, v) ∧ v.lower = u) ↔ ∃ v, deserializeBool env t root' target next' = some (true, v) ∧ v.lower = u) ∧
    ((∃ v, deserializeThrow env t root next = .returned v ∧ v.lower = u) ↔ ∃ v, deserializeThrow env t root' next' = .returned v ∧ v.lower = u) := by
  have hu := lower_env_unshared env
  have htl := lower_unshared t
  have hcl := (calm_lower env root).2 hc
  have hcl' := (calm_lower env root').2 hc'
  obtain ⟨h1, h2⟩ := C38_dom_deep_partial env.lower hu t.lower htl root root' hs hcl hcl' hun hun' target.lower 0
  rw [C32_shared_value_partial env hb t root hn hc hun, C32_shared_value_partial env hb t root' hn' hc' hun',
    C33_shared_value_partial env hb t root hn hc hun.variants, C33_shared_value_partial env hb t root' hn' hc' hun'.variants,
    ← (C32_exact_partial env.lower hu t.lower htl root hcl hun target.lower 0).1, ← (C32_exact_partial env.lower hu t.lower htl root' hcl' hun' target.lower 0).1]
  refine ⟨h1 u, ?_⟩
  have h3 := (C33_exact_partial env.lower hu t.lower htl root hcl hun.variants 0).2 u
  have h4 := (C33_exact_partial env.lower hu t.lower htl root' hcl' hun'.variants 0).2 u
  rw [show env.fresh t = env.lower.fresh t.lower from (hb.fresh t).symm, ← h3, ← h4]
  exact h2 u

/-- `{"a": 1, "b": 2}` as a map of shared pointers, with its members in either order. -/
example (next next' : Nat) (u : Val) :
    (∃ v, deserializeThrow bareEnv (.map true (.sptr tInt)) (.obj [(lit "a", .num (.int 1)), (lit "b", .num (.int 2))]) next = .returned v ∧ v.lower = u) ↔
    ∃ v, deserializeThrow bareEnv (.map true (.sptr tInt)) (.obj [(lit "b", .num (.int 2)), (lit "a", .num (.int 1))]) next' = .returned v ∧ v.lower = u := by
  have hun : ∀ ms, Unmasked bareEnv.lower (Ty.lower (.map true (.sptr tInt))) (.obj ms) := fun ms => Unmasked.of (fun _ _ h => by cases h) fun t' j' h => by
    cases h with
    | map _ _ _ p h =>
      refine Unmasked.of (fun _ _ h => by cases h) fun t' j' h => ?_
      cases h with
      | uptr => exact Unmasked.prim _ _ _
  refine (C38_dom_shared_partial bareEnv bare (.map true (.sptr tInt)) _ _ ?_ ?_ ?_ (by simp [Calm, CalmFields]) (by simp [Calm, CalmFields])
    (hun _) (hun _) (.prim .null) next next' u).2
  · exact .obj _ [(lit "b", .num (.int 2)), (lit "a", .num (.int 1))] _ (by decide) (List.reverse_perm _).symm
      (.cons _ _ _ _ _ (.same _) (.cons _ _ _ _ _ (.same _) .nil))
  · simp only [Json.noRef, Json.noRefFields, and_true, List.map_cons, List.map_nil]
    decide +kernel
  · simp only [Json.noRef, Json.noRefFields, and_true, List.map_cons, List.map_nil]
    decide +kernel

example (next : Nat) : deserializeThrow bareEnv (.map true (.sptr tInt)) (.obj [(lit "b", .num (.int 2)), (lit "a", .num (.int 1))]) next =
    .returned (.map [(lit "a", .sptr (next + 1) (.prim (.int 1))), (lit "b", .sptr next (.prim (.int 2)))]) := rfl

/-! ## C77 with shared pointers -/

/-- **C77 for all types (partial).** Reading with the old and the new type, throwing variant, on a document without references. `std::unique_ptr` may become
`std::shared_ptr` and the other way round; `Widens` and `Carried` do not distinguish the kinds.

Missing: as in `C77_throw_partial`; references, sets of pointers. -/
theorem C77_shared_throw_partial (env : Env) (hb : env.Bare) (hdist : env.DistinctNames) (R : Nat → Nat → Prop) (hR : Replaces env.lower R) (t t' : Ty)
    (hw : Widens R t.lower t'.lower) (root : Json) (hn : root.noRef) (hc : Calm env root) (hv : VariantsUnmasked env.lower t.lower root)
    (hv' : VariantsUnmasked env.lower t'.lower root) (loose : Bool) (hl : loose = false → Entire env.lower t.lower root) (next next' : Nat) (v : Val)
    (h : deserializeThrow env t root next = .returned v) :
    ∃ v', deserializeThrow env t' root next' = .returned v' ∧ Carried env.lower loose t.lower t'.lower v.lower v'.lower := by
  have h1 := C84_throw_partial env hb t root hn hc hv next 0
  have h2 := C84_throw_partial env hb t' root hn hc hv' next' 0
  rw [h] at h1
  obtain ⟨w, h3, h4⟩ := C77_throw_partial env.lower (lower_env_unshared env) (fun c => by rw [lower_names]; exact hdist c) R hR t.lower t'.lower hw (lower_unshared t)
    (lower_unshared t') root ((calm_lower env root).2 hc) hv hv' loose hl 0 0 v.lower h1
  rw [h3] at h2
  cases hr : deserializeThrow env t' root next' with
  | returned v' =>
    rw [hr] at h2
    cases h2
    exact ⟨v', rfl, h4⟩
  | _ => rw [hr] at h2; cases h2

/-- **C77 for all types (partial).** Files: a value without shared objects, written by the old program and read by the new one.

Missing: values with shared objects, and those that the old program could not read either (C26); sets of pointers. -/
theorem C77_shared_files_partial (env : Env) (hb : env.Bare) (hfair : env.Fair) (hclk : 0 < env.clk) (hdist : env.DistinctNames) (R : Nat → Nat → Prop)
    (hR : Replaces env.lower R) (t t' : Ty) (hw : Widens R t.lower t'.lower) (H : Heap) (v : Val) (hty : HasTy env H v t) (hd : (addrs v).Nodup)
    (hf : finite v = true) (hr : Readable env.lower v.lower t.lower) (doc : Json) (hs : serializeToDocument env t v = some (some doc)) (hn : doc.noRef)
    (hc : Calm env doc) (hv' : VariantsUnmasked env.lower t'.lower doc) (next : Nat) :
    ∃ v', deserializeThrow env t' doc next = .returned v' ∧ Carried env.lower false t.lower t'.lower v.lower v'.lower := by
  obtain ⟨r, h1, hs'⟩ := C87_document env hfair H t v hty hd
  cases hs.symm.trans h1
  obtain ⟨-, h1⟩ := C77_files_partial env.lower (lower_env_unshared env) hfair hclk (fun c => by rw [lower_names]; exact hdist c) R hR t.lower t'.lower hw
    (lower_unshared t) (lower_unshared t') v.lower (hasTy_lower env H hb v t hty) (by rw [finite_lower]; exact hf) hr doc hs' ((calm_lower env doc).2 hc)
  obtain ⟨-, w, h2, h3⟩ := h1 hv' (.prim .null) 0
  have h4 := C84_throw_partial env hb t' doc hn hc hv' next 0
  rw [h2] at h4
  cases hr : deserializeThrow env t' doc next with
  | returned v' =>
    rw [hr] at h4
    cases h4
    exact ⟨v', rfl, h3⟩
  | _ => rw [hr] at h4; cases h4

/-- `std::vector<std::unique_ptr<std::int32_t>>` becomes `std::vector<std::shared_ptr<double>>`. -/
theorem pointers_widen : Widens (fun _ _ => False) (Ty.lower (.vec (.uptr tInt))) (Ty.lower (.vec (.sptr (.prim (.flt .double))))) :=
  .vec _ _ (.ptr _ _ (.prim _ _ (.real _ _ (by decide))))

theorem pointers_variants (t : Ty) (ht : t ∈ [Ty.vec (.uptr tInt), .vec (.uptr (.prim (.flt .double)))]) (j : Json) : VariantsUnmasked bareEnv.lower t j := by
  refine leaf_variants bareEnv.lower (fun t => t ∈ [Ty.vec (.uptr tInt), .vec (.uptr (.prim (.flt .double))), .uptr tInt, .uptr (.prim (.flt .double)), tInt, .prim (.flt .double)])
    ?_ ?_ t (by simp only [List.mem_cons, List.not_mem_nil, or_false] at ht ⊢; rcases ht with rfl | rfl <;> simp) j
  · intro t j t' j' ht hc
    simp only [List.mem_cons, List.not_mem_nil, or_false] at ht
    rcases ht with rfl | rfl | rfl | rfl | rfl | rfl <;> cases hc <;> simp
  · intro ts h
    simp at h

example (next next' : Nat) (v : Val) (h : deserializeThrow bareEnv (.vec (.uptr tInt)) (.arr [.num (.int 3), .num (.int 4)]) next = .returned v) :
    ∃ v', deserializeThrow bareEnv (.vec (.sptr (.prim (.flt .double)))) (.arr [.num (.int 3), .num (.int 4)]) next' = .returned v' ∧
      Carried bareEnv.lower true (.vec (.uptr tInt)) (.vec (.uptr (.prim (.flt .double)))) v.lower v'.lower :=
  C77_shared_throw_partial bareEnv bare demo_distinct (fun _ _ => False) (fun _ _ h => h.elim) (.vec (.uptr tInt)) (.vec (.sptr (.prim (.flt .double)))) pointers_widen _
    (by simp [Json.noRef, Json.noRefAll]) (by simp [Calm, CalmAll]) (pointers_variants _ (by simp [Ty.lower]) _) (pointers_variants _ (by simp [Ty.lower]) _) true (by simp)
    next next' v h

example (next : Nat) : ∃ v', deserializeThrow bareEnv (.vec (.sptr (.prim (.flt .double)))) (.arr [.num (.int 3), .num (.int 4)]) next = .returned v' ∧
    Carried bareEnv.lower false (.vec (.uptr tInt)) (.vec (.uptr (.prim (.flt .double)))) (.seq [.uptr (.prim (.int 3)), .uptr (.prim (.int 4))]) v'.lower :=
  C77_shared_files_partial bareEnv bare fair (by decide) demo_distinct (fun _ _ => False) (fun _ _ h => h.elim) (.vec (.sptr tInt)) (.vec (.sptr (.prim (.flt .double))))
    pointers_widen (fun a => if a = 8 then some (tInt, .prim (.int 3)) else some (tInt, .prim (.int 4))) (.seq [.sptr 8 (.prim (.int 3)), .sptr 9 (.prim (.int 4))])
    (by simp [HasTy, AllTy, PrimTy]; decide) (by decide) rfl (by simp [Val.lower, lowerVals, Ty.lower, Readable, ReadableAll, LeafGood]) _ rfl
    (by simp [Json.noRef, Json.noRefAll]) (by simp [Calm, CalmAll]) (pointers_variants _ (by simp [Ty.lower]) _) next

end Verif.Props
