import Verif.Depth
import Verif.Props.Cost

/-!
# C94: how deep reading and writing recurse

`depthBool`, `depthThrow` and `depthDocument` count the calls of `deserialize` and `serialize` that are active at the same time.
-/

namespace Verif.Props
open Verif.Core Verif.Numeric Verif.EnumConv Verif.Demo

/-- **C94.** If types nest at most `n` levels, then reading and writing are never more than `n` calls deep, whatever the document or the value is.

Missing: classes that contain themselves, at any depth (`C94_recursive`, `C94_document`, `C94_value`). -/
theorem C94_types_partial (env : Env) (n : Nat) (t : Ty) (h : Nested env n t) (root : Json) (v target : Val) (next : Nat) :
    depthBool env t root target next ≤ n ∧ depthThrow env t root next ≤ n ∧ depthDocument env t v ≤ n :=
  ⟨depth_nested env root root t n h _ _ _ _ _, depth_nested env root root t n h _ _ _ _ _, sdepth_le env v t n (.inl h) _ _⟩

theorem nested_prim (env : Env) (n : Nat) (p : Prim) : Nested env (n + 1) (.prim p) := by
  rintro _ ⟨⟩

theorem nested_item : Nested Demo.env 2 (.cls 1) := by
  intro t' hi
  cases hi with
  | cls _ m hm =>
    change m ∈ item.members at hm
    simp only [item, List.mem_cons, List.not_mem_nil, or_false] at hm
    rcases hm with rfl | rfl | rfl <;> exact nested_prim _ _ _

theorem nested_crowd : Nested Demo.env 5 (.vec (.cls 2)) := by
  intro t' hi
  cases hi with
  | vec =>
    intro t' hi
    cases hi with
    | cls _ m hm =>
      change m ∈ both.members at hm
      simp only [both, List.mem_cons, List.not_mem_nil, or_false] at hm
      rcases hm with rfl | rfl <;> (intro t' hi; cases hi; exact nested_item)

/-- `std::vector<Both>`: whatever the text, never more than five calls; for a vector with two shared objects it is five. -/
example (root : Json) (next : Nat) : depthThrow Demo.env (.vec (.cls 2)) root next ≤ 5 := (C94_types_partial _ 5 _ nested_crowd root crowd (.prim .null) next).2.1
example : depthDocument Demo.env (.vec (.cls 2)) crowd = 5 := by with_unfolding_all rfl

/-- **C94.** For every document, reading is at most `K` calls deep for each level of the document, if at most `K` pointers and variants follow
directly upon one another in a type (`std::shared_ptr<std::variant<int, std::unique_ptr<T>>>`: 4). -/
theorem C94_document (env : Env) (K : Nat) (t : Ty) (h : FewLinks env K t) (root : Json) (target : Val) (next : Nat) :
    depthBool env t root target next ≤ K * (root.depth + 1) ∧ depthThrow env t root next ≤ K * (root.depth + 1) :=
  ⟨depth_document env root root t K h _ _ _ _ _, depth_document env root root t K h _ _ _ _ _⟩

theorem expr_links : FewLinks exprEnv 3 tExpr := by
  intro u hu
  rcases expr_within hu with rfl | rfl | rfl | rfl | rfl <;> decide

/-- `{"arg": {"not": 0}, "not": 0}` as a `std::variant<Neg, Not>` -/
example (next : Nat) : depthThrow exprEnv tExpr (notsDoc 1) next ≤ 3 * 3 := (C94_document exprEnv 3 tExpr expr_links (notsDoc 1) (.prim .null) next).2

/-- **C94.** Writing is never deeper than the value has levels. -/
theorem C94_value (env : Env) (t : Ty) (v : Val) : depthDocument env t v ≤ levels v := sdepth_le env v t _ (.inr (Nat.le_refl _)) _ _

example : depthDocument Demo.env (.cls 2) twice ≤ 4 := C94_value Demo.env (.cls 2) twice

/-- **C94.** For every document: if no more than `n` steps lead from the document to a component of a component, then reading is at most `n + 1` calls
deep; references are no steps. -/
theorem C94_nesting (env : Env) (t : Ty) (root : Json) (n : Nat) (h : ∀ m, Nesting env m t root [] → m ≤ n) (target : Val) (next : Nat) :
    depthBool env t root target next ≤ n + 1 ∧ depthThrow env t root next ≤ n + 1 :=
  ⟨depth_nesting env root root t [] n h _ _ _ _ _, depth_nesting env root root t [] n h _ _ _ _ _⟩

/-- A number is read by one call. -/
example (next : Nat) : depthThrow Demo.env (.vec tInt) (.num (.int 1)) next ≤ 0 + 1 :=
  (C94_nesting Demo.env (.vec tInt) (.num (.int 1)) 0 (fun m hm => by
    cases hm with
    | here => exact Nat.le_refl 0
    | step _ _ _ _ _ _ _ hc => cases hc) (.prim .null) next).2

/-- **C94.** If the throwing variant reads a document without references, then the depth is exactly the number of nodes on the longest way downwards.

Missing: variants, whose alternatives that do not fit are not read to the end; references. -/
theorem C94_exact_partial (env : Env) (t : Ty) (hv : Variantless env t) (root : Json) (hk : NoKeys [lit "$ref"] root) (next : Nat) (v : Val)
    (h : deserializeThrow env t root next = .returned v) (n : Nat) : n < depthThrow env t root next ↔ ∃ m, n ≤ m ∧ Nesting env m t root [] := by
  constructor
  · intro hn
    by_cases hc : ∃ m, n ≤ m ∧ Nesting env m t root []
    · exact hc
    · have hle : ∀ m, Nesting env m t root [] → m < n := fun m hm => Nat.lt_of_not_le fun hle => hc ⟨m, hle, hm⟩
      have h0 := hle 0 (.here _ _ _)
      have := (C94_nesting env t root (n - 1) (fun m hm => by have := hle m hm; omega) (.prim .null) next).2
      omega
  · rintro ⟨m, hm, hn⟩
    unfold deserializeThrow at h
    split at h
    · cases h
    · cases h
    · rename_i hd
      have := (depth_full env root root t hk hv _ _ _ _ _ _ _ hd).2 m [] hn
      exact Nat.lt_of_le_of_lt hm this

/-- `{"value": 1, "children": [{"value": 2, "children": []}]}` as a `Tree`: object, array, object, number -/
def smallTree : Json := .obj [(lit "value", .num (.int 1)), (lit "children", .arr [.obj [(lit "value", .num (.int 2)), (lit "children", .arr [])]])]

theorem tree_variantless : Variantless Demo.env (.cls 4) := by
  have : ∀ u, Within Demo.env (.cls 4) u → u = .cls 4 ∨ u = .vec (.cls 4) ∨ u = tInt := by
    intro u hu
    induction hu with
    | self => exact .inl rfl
    | inner t1 t2 _ hi ih =>
      rcases ih with rfl | rfl | rfl
      · cases hi with
        | cls _ m hm =>
          change m ∈ tree.members at hm
          simp only [tree, List.mem_cons, List.not_mem_nil, or_false] at hm
          rcases hm with rfl | rfl <;> simp
      · cases hi; simp
      · cases hi
  intro ts hts
  rcases this _ hts with h | h | h <;> cases h

example (next : Nat) : 3 < depthThrow Demo.env (.cls 4) smallTree next := by
  refine (C94_exact_partial Demo.env (.cls 4) tree_variantless smallTree (by simp only [smallTree, NoKeys, NoKeysAll, NoKeysFields]; decide +kernel) next
    (.obj [.prim (.int 1), .seq [.obj [.prim (.int 2), .seq []]]]) (by with_unfolding_all rfl) 3).2 ⟨3, Nat.le_refl 3, ?_⟩
  exact .step 2 _ _ _ _ _ _ (.cls 4 _ ⟨lit "children", .required, .vec (.cls 4)⟩ 1 _ [] (by simp [Env.members, Demo.env, tree]) rfl)
    (.step 1 _ _ _ _ _ _ (.vec _ _ 0 _ _ rfl)
      (.step 0 _ _ _ _ _ _ (.cls 4 _ ⟨lit "value", .required, tInt⟩ 0 _ _ (by simp [Env.members, Demo.env, tree]) rfl) (.here _ _ _)))

/-! ## Recursive classes -/

theorem nots_levels (n : Nat) : levels (nots n) = 3 * n + 3 := by
  induction n with
  | zero => rfl
  | succ n ih =>
    simp only [nots, levels, levelsAll, ih]
    have : Nat.max (1 + (3 * n + 3)) (Nat.max 1 0) = 1 + (3 * n + 3) := Nat.max_eq_left (by simp only [Nat.max_def]; split <;> omega)
    rw [this]
    omega

theorem nots_sdepth (n : Nat) : ∀ segs σ, 3 * n + 3 ≤ sdepth exprEnv (nots n) tExpr segs σ := by
  induction n with
  | zero => exact fun _ _ => Nat.le_refl _
  | succ n ih =>
    intro segs σ
    simp only [nots, tExpr, sdepth, List.getElem?_cons_succ, List.getElem?_cons_zero, not_members, sdepthMembers]
    have := ih (Seg.name (lit "arg") :: segs) σ
    rw [tExpr] at this
    refine Nat.le_trans ?_ (Nat.add_le_add_left (Nat.add_le_add_left (Nat.le_max_left _ _) 1) 1)
    omega

theorem nots_depth (root : Json) (n : Nat) : ∀ exc target loc segs st, 3 * n + 3 ≤ depth exprEnv root (notsDoc n) exc tExpr target loc segs st := by
  induction n with
  | zero =>
    intro exc target loc segs st
    rw [depth_node, tExpr]
    exact Nat.le_of_eq rfl
  | succ n ih =>
    intro exc target loc segs st
    rw [depth_node, tExpr, depthNode, depthAlternatives]
    have key : 3 * n + 5 ≤ depth exprEnv root (notsDoc (n + 1)) false (.cls 0) (exprEnv.fresh (.cls 0)) loc segs st := by
      rw [depth_node]
      simp only [depthNode, notsDoc, Json.fields, List.map, neg_members, depthMembers, find_arg, if_true]
      have h2 : 3 * n + 4 ≤ depth exprEnv root (notsDoc n) false (.uptr tExpr) (exprEnv.fresh (.uptr tExpr)) (0 :: loc) (Seg.name (cstr (lit "arg")) :: segs) st := by
        have := ih false (exprEnv.ctor tExpr) (0 :: loc) (Seg.name (cstr (lit "arg")) :: segs) st
        rw [depth_node] at this ⊢
        simp only [depthNode]
        omega
      refine Nat.le_trans ?_ (Nat.add_le_add_left (Nat.le_max_left _ _) 1)
      omega
    rw [depth_node] at key
    refine Nat.le_trans ?_ (Nat.add_le_add_left (Nat.le_max_left _ _) 1)
    omega

theorem nots_height (n : Nat) : (notsDoc n).depth = n + 1 := by
  induction n with
  | zero => rfl
  | succ n ih =>
    simp only [notsDoc, Json.depth, Json.depthFields, ih]
    have : Nat.max (n + 1) (Nat.max 0 0) = n + 1 := Nat.max_eq_left (Nat.zero_le _)
    rw [this]
    omega

/-- **C94, negation.** For a class that contains itself there is no bound: `n` nested objects are written, and what is written is read, with more than
`3 n` calls inside one another; the bounds of `C94_value` (writing) and `C94_document` (reading, up to three calls) are reached. -/
theorem C94_recursive (n : Nat) (target : Val) (next : Nat) :
    serializeToDocument exprEnv tExpr (nots n) = some (some (notsDoc n)) ∧ deserializeThrow exprEnv tExpr (notsDoc n) next = .returned (nots n) ∧
    depthDocument exprEnv tExpr (nots n) = levels (nots n) ∧ levels (nots n) = 3 * n + 3 ∧
    3 * (notsDoc n).depth ≤ depthThrow exprEnv tExpr (notsDoc n) next ∧ 3 * (notsDoc n).depth ≤ depthBool exprEnv tExpr (notsDoc n) target next ∧
    (notsDoc n).depth = n + 1 ∧ ∀ k, ¬ Nested exprEnv k tExpr := by
  have h1 := nots_levels n
  have h2 := nots_sdepth n [] []
  have h3 := C94_value exprEnv tExpr (nots n)
  have h4 := nots_height n
  refine ⟨(C74_exponential n target next).1, (C74_exponential n target next).2.2.1, ?_, h1, ?_, ?_, h4, fun k hk => ?_⟩
  · unfold depthDocument at h3 ⊢
    omega
  · have := nots_depth (notsDoc n) n true (exprEnv.fresh tExpr) [] [] ⟨[], next⟩
    unfold depthThrow
    omega
  · have := nots_depth (notsDoc n) n false target [] [] ⟨[], next⟩
    unfold depthBool
    omega
  · have h5 := sdepth_le exprEnv (nots k) tExpr k (.inl hk) [] []
    have h6 := nots_sdepth k [] []
    omega

example : depthThrow exprEnv tExpr (notsDoc 100) 0 ≥ 300 := by
  have := (C94_recursive 100 (.prim .null) 0).2.2.2.2
  have h := this.2.2.1
  have := this.1
  omega

end Verif.Props
