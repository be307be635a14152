import Verif.Cost
import Verif.Props.Evolve

/-!
# C74: how much work reading is

`costBool` and `costThrow` count the calls of readers, comparisons of keys and steps of references of the two variants of `deserialize`.
-/

namespace Verif.Props
open Verif.Core Verif.Numeric Verif.EnumConv Verif.Demo

/-- **C74.** Whatever the document is, reading takes at most `D ^ depth * C * size` steps, if at most `D` alternatives of a variant (and of variants
directly inside of it) are arrays, and at most `D` are objects. -/
theorem C74_bound (env : Env) (hd : env.DistinctNames) (F M D : Nat) (hD : 1 ≤ D) (t : Ty) (hb : Bounded env F M D t) (root : Json) (hk : NoKeys [lit "$ref"] root)
    (target : Val) (next : Nat) :
    costBool env t root target next ≤ D ^ root.depth * (F * (M + 2) * nodes root) ∧ costThrow env t root next ≤ D ^ root.depth * (F * (M + 2) * nodes root) :=
  ⟨cost_bound env hd root F M D 0 hD t (.inl hk) hb _ _ _ _ _, cost_bound env hd root F M D 0 hD t (.inl hk) hb _ _ _ _ _⟩

/-- **C74.** With at most one alternative of each kind (no variants, or variants like `std::variant<int, std::string, std::vector<T>, Class>`) the
work is linear in the size of the document.

Missing: references (`C74_references_partial`), variants with several classes or several kinds of arrays (`C74_exponential`). -/
theorem C74_linear_partial (env : Env) (hd : env.DistinctNames) (F M : Nat) (t : Ty) (hb : Bounded env F M 1 t) (root : Json) (hk : NoKeys [lit "$ref"] root)
    (target : Val) (next : Nat) : costBool env t root target next ≤ F * (M + 2) * nodes root ∧ costThrow env t root next ≤ F * (M + 2) * nodes root := by
  have h := C74_bound env hd F M 1 (Nat.le_refl _) t hb root hk target next
  rwa [Nat.one_pow, Nat.one_mul] at h

/-- **C74.** With references the work is at most quadratic.

Missing: variants with several alternatives of the same kind. -/
theorem C74_references_partial (env : Env) (hd : env.DistinctNames) (F M : Nat) (t : Ty) (hb : Bounded env F M 1 t) (root : Json) (target : Val) (next : Nat) :
    costBool env t root target next ≤ F * (M + 2 + 2 * nodes root) * nodes root ∧ costThrow env t root next ≤ F * (M + 2 + 2 * nodes root) * nodes root := by
  have h : ∀ exc target, cost env root root exc t target [] [] ⟨[], next⟩ ≤ F * (M + 2 + 2 * nodes root) * nodes root := by
    intro exc target
    have := cost_bound env hd root F M 1 (2 * nodes root) (Nat.le_refl _) t (.inr (Nat.le_refl _)) hb exc target [] [] ⟨[], next⟩
    rwa [Nat.one_pow, Nat.one_mul] at this
  exact ⟨h _ _, h _ _⟩

/-! ## Variants of classes -/

/-- `std::variant<Neg, Not>` -/
def tExpr : Ty := .variant [.cls 0, .cls 1]

/-- `struct Neg { std::optional<std::unique_ptr<std::variant<Neg, Not>>> arg; int neg; }` and
`struct Not { std::optional<std::unique_ptr<std::variant<Neg, Not>>> arg; int not_; }` -/
def exprEnv : Env := { Demo.env with
  classes := fun c => match c with
    | 0 => ⟨lit "Neg", [⟨lit "arg", .optional, .uptr tExpr⟩, ⟨lit "neg", .required, tInt⟩]⟩
    | 1 => ⟨lit "Not", [⟨lit "arg", .optional, .uptr tExpr⟩, ⟨lit "not", .required, tInt⟩]⟩
    | _ => ⟨[], []⟩ }

/-- `Not{Not{...Not{}}}` -/
def nots : Nat → Val
  | 0 => .alt 1 (.obj [.absent, .prim (.int 0)])
  | n + 1 => .alt 1 (.obj [.present (.uptr (nots n)), .prim (.int 0)])

/-- `{"arg": {"arg": ... {"not": 0}, "not": 0}, "not": 0}` -/
def notsDoc : Nat → Json
  | 0 => .obj [(lit "not", .num (.int 0))]
  | n + 1 => .obj [(lit "arg", notsDoc n), (lit "not", .num (.int 0))]

theorem nots_ser (n : Nat) (segs : List Seg) (σ : STab) : ser exprEnv (nots n) tExpr segs σ = .done σ (some (notsDoc n)) := by
  induction n generalizing segs σ with
  | zero => rfl
  | succ n ih =>
    simp only [nots, tExpr, ser, List.getElem?_cons_succ, List.getElem?_cons_zero]
    show SRes.map _ (serMembers exprEnv [.present (.uptr (nots n)), .prim (.int 0)] [⟨lit "arg", .optional, .uptr tExpr⟩, ⟨lit "not", .required, tInt⟩] segs σ) = _
    simp only [serMembers, ser, ih, serPrim, SRes.map, Option.map, notsDoc]

theorem neg_members : exprEnv.members 0 = [⟨lit "arg", .optional, .uptr tExpr⟩, ⟨lit "neg", .required, tInt⟩] := rfl

theorem not_members : exprEnv.members 1 = [⟨lit "arg", .optional, .uptr tExpr⟩, ⟨lit "not", .required, tInt⟩] := rfl

theorem find_arg {α : Type} (f g : α) : findMember (lit "arg") [(lit "arg", f), (lit "not", g)] = some (0, f) := rfl

theorem find_not {α : Type} (f g : α) : findMember (lit "not") [(lit "arg", f), (lit "not", g)] = some (1, g) := rfl

theorem find_neg {α : Type} (f g : α) : findMember (lit "neg") [(lit "arg", f), (lit "not", g)] = none := rfl

theorem nots_read (root : Json) (n : Nat) : ∀ exc target loc segs st, deser exprEnv root (notsDoc n) exc tExpr target loc segs st = .done true (nots n) st ∧
    ∃ w, deser exprEnv root (notsDoc n) false (.cls 0) target loc segs st = .done false w st := by
  induction n with
  | zero => exact fun _ _ _ _ _ => ⟨rfl, _, rfl⟩
  | succ n ih =>
    have hneg : ∀ target loc segs st, ∃ w, deser exprEnv root (notsDoc (n + 1)) false (.cls 0) target loc segs st = .done false w st := by
      intro target loc segs st
      rw [notsDoc, deser_cls]
      simp only [List.map, neg_members, runMembers, find_arg, find_neg, deser_uptr, (ih _ _ _ _ _).1, DRes.map, Bool.false_eq_true, if_false]
      exact ⟨_, rfl⟩
    have hnot : ∀ target loc segs st, deser exprEnv root (notsDoc (n + 1)) false (.cls 1) target loc segs st = .done true (.obj [.present (.uptr (nots n)), .prim (.int 0)]) st := by
      intro target loc segs st
      rw [notsDoc, deser_cls]
      simp only [List.map, not_members, runMembers, find_arg, find_not, deser_uptr, (ih _ _ _ _ _).1]
      rfl
    intro exc target loc segs st
    refine ⟨?_, hneg _ _ _ _⟩
    obtain ⟨w, hw⟩ := hneg (exprEnv.fresh (.cls 0)) loc segs st
    rw [tExpr, deser_variant]
    simp only [tryAll, hw, hnot, nots]

theorem nots_cost (root : Json) (n : Nat) : ∀ exc target loc segs st, 2 ^ n ≤ cost exprEnv root (notsDoc n) exc tExpr target loc segs st := by
  induction n with
  | zero =>
    intro exc target loc segs st
    rw [cost_node, tExpr, costNode]
    omega
  | succ n ih =>
    intro exc target loc segs st
    have key : ∀ c, c = 0 ∨ c = 1 → ∀ target, 2 ^ n ≤ cost exprEnv root (notsDoc (n + 1)) false (.cls c) target loc segs st := by
      intro c hc target
      rw [cost_node]
      have h1 : ∃ ms, exprEnv.members c = ⟨lit "arg", .optional, .uptr tExpr⟩ :: ms := by rcases hc with rfl | rfl <;> exact ⟨_, rfl⟩
      obtain ⟨ms, h1⟩ := h1
      simp only [costNode, notsDoc, Json.fields, List.map, h1, costMembers, find_arg, if_true]
      have h2 : 2 ^ n ≤ cost exprEnv root (notsDoc n) false (.uptr tExpr) (exprEnv.fresh (.uptr tExpr)) (0 :: loc) (Seg.name (cstr (lit "arg")) :: segs) st := by
        have := ih false (exprEnv.ctor tExpr) (0 :: loc) (Seg.name (cstr (lit "arg")) :: segs) st
        rw [cost_node] at this ⊢
        simp only [costNode]
        omega
      exact Nat.le_trans h2 (Nat.le_trans (Nat.le_add_right _ _) (Nat.le_trans (Nat.le_add_left _ _) (Nat.le_add_left _ _)))
    rw [cost_node, tExpr, costNode, costAlternatives]
    obtain ⟨w, hw⟩ := (nots_read root (n + 1) false (exprEnv.fresh (.cls 0)) loc segs st).2
    rw [hw]
    simp only [costAlternatives]
    have h0 := key 0 (.inl rfl) (exprEnv.fresh (.cls 0))
    have h1 := key 1 (.inr rfl) (exprEnv.fresh (.cls 1))
    rw [cost_node] at h0 h1
    rw [Nat.pow_succ]
    omega

theorem nots_nodes (n : Nat) : nodes (notsDoc n) = 2 * n + 2 := by
  induction n with
  | zero => rfl
  | succ n ih => simp only [notsDoc, nodes, nodesFields, ih]; omega

/-- **C74, negation.** A variant of two classes that contain each other: the document that is written for `n` nested objects has `2 n + 2` values
and is read back, but reading takes at least `2 ^ n` steps, because each object is first read in vain as an object of the first class. -/
theorem C74_exponential (n : Nat) (target : Val) (next : Nat) :
    serializeToDocument exprEnv tExpr (nots n) = some (some (notsDoc n)) ∧ nodes (notsDoc n) = 2 * n + 2 ∧
    deserializeThrow exprEnv tExpr (notsDoc n) next = .returned (nots n) ∧
    2 ^ n ≤ costThrow exprEnv tExpr (notsDoc n) next ∧ 2 ^ n ≤ costBool exprEnv tExpr (notsDoc n) target next := by
  refine ⟨by rw [serializeToDocument, nots_ser], nots_nodes n, ?_, nots_cost _ _ _ _ _ _ _, nots_cost _ _ _ _ _ _ _⟩
  rw [deserializeThrow, (nots_read _ n _ _ _ _ _).1]

/-! ## References -/

/-- `struct Hub { std::shared_ptr<int> b; std::vector<std::shared_ptr<int>> refs; }` -/
def hubEnv : Env := { Demo.env with
  classes := fun c => match c with
    | 0 => ⟨lit "Hub", [⟨lit "b", .required, .sptr tInt⟩, ⟨lit "refs", .required, .vec (.sptr tInt)⟩]⟩
    | _ => ⟨[], []⟩ }

/-- `{"$ref": "/b"}` -/
def toB : Json := .obj [(lit "$ref", .str (lit "/b"))]

/-- `{"a": null, ..., "a": null, "b": 7, "refs": [{"$ref": "/b"}, ..., {"$ref": "/b"}]}` -/
def hubDoc (n : Nat) : Json := .obj (List.replicate n (lit "a", .null) ++ [(lit "b", .num (.int 7)), (lit "refs", .arr (List.replicate n toB))])

theorem find_hub {α : Type} (n : Nat) (a f g : α) : findMember (lit "b") (List.replicate n (lit "a", a) ++ [(lit "b", f), (lit "refs", g)]) = some (n, f) ∧
    findMember (lit "refs") (List.replicate n (lit "a", a) ++ [(lit "b", f), (lit "refs", g)]) = some (n + 1, g) ∧
    compared (lit "b") (List.replicate n (lit "a", a) ++ [(lit "b", f), (lit "refs", g)]) = n + 1 := by
  induction n with
  | zero => exact ⟨rfl, rfl, rfl⟩
  | succ n ih =>
    obtain ⟨h1, h2, h3⟩ := ih
    simp only [List.replicate_succ, List.cons_append, findMember, compared, h1, h2, h3, show (lit "a" = lit "b") = False by decide +kernel,
      show (lit "a" = lit "refs") = False by decide +kernel, if_false]
    exact ⟨trivial, trivial, by omega⟩

theorem toB_read (n : Nat) (exc : Bool) (target : Val) (loc : Loc) (segs : List Seg) (next : Nat) :
    deser hubEnv (hubDoc n) toB exc (.sptr tInt) target loc segs ⟨[([n], next, tInt, .prim (.int 7))], next + 1⟩ =
      .done true (.sptr next (.prim (.int 7))) ⟨[([n], next, tInt, .prim (.int 7))], next + 1⟩ := by
  rw [deser_sptr]
  have h1 : refMember toB = some (.str (lit "/b")) := rfl
  have h2 : pointerTokens hubEnv (lit "/b") = some [lit "b"] := by decide +kernel
  have h3 : pointerGet (hubDoc n) [lit "b"] = some [n] := by
    rw [hubDoc, pointerGet.eq_def]
    simp only [(find_hub n _ _ _).1, pointerGet, Option.map]
  simp only [h1, readRef, h2, h3, DState.get, List.reverse_singleton, List.lookup, beq_self_eq_true, if_true]

theorem toB_cost (n : Nat) (exc : Bool) (target : Val) (loc : Loc) (segs : List Seg) (st : DState) : n ≤ cost hubEnv (hubDoc n) toB exc (.sptr tInt) target loc segs st := by
  rw [cost_node, costNode]
  have h1 : refMember toB = some (.str (lit "/b")) := rfl
  have h2 : pointerTokens hubEnv (lit "/b") = some [lit "b"] := by decide +kernel
  have h3 : n ≤ resolved (hubDoc n) [lit "b"] := by
    rw [hubDoc, resolved.eq_def]
    simp only [(find_hub n _ _ _).2.2]
    omega
  simp only [h1, costRef, h2]
  omega

theorem hub_refs (n m : Nat) (exc : Bool) (k : Nat) (loc : Loc) (segs : List Seg) (next : Nat) :
    runSame hubEnv (.sptr tInt) exc ((List.replicate m toB).map (deser hubEnv (hubDoc n))) k loc segs ⟨[([n], next, tInt, .prim (.int 7))], next + 1⟩ =
      .done true (List.replicate m (.sptr next (.prim (.int 7)))) ⟨[([n], next, tInt, .prim (.int 7))], next + 1⟩ ∧
    m * n ≤ costSame hubEnv (hubDoc n) (.sptr tInt) exc ((List.replicate m toB).map fun j => (j, cost hubEnv (hubDoc n) j)) k loc segs
      ⟨[([n], next, tInt, .prim (.int 7))], next + 1⟩ := by
  induction m generalizing k with
  | zero => simp [runSame]
  | succ m ih =>
    obtain ⟨h1, h2⟩ := ih (k + 1)
    simp only [List.replicate_succ, List.map_cons, runSame, costSame, toB_read, h1, DRes.map, true_and]
    have := toB_cost n exc (hubEnv.fresh (.sptr tInt)) (k :: loc) (.index k :: segs) ⟨[([n], next, tInt, .prim (.int 7))], next + 1⟩
    rw [Nat.succ_mul]
    omega

theorem hub_read (n : Nat) (exc : Bool) (target : Val) (next : Nat) :
    deser hubEnv (hubDoc n) (hubDoc n) exc (.cls 0) target [] [] ⟨[], next⟩ =
      .done true (.obj [.sptr next (.prim (.int 7)), .seq (List.replicate n (.sptr next (.prim (.int 7))))]) ⟨[([n], next, tInt, .prim (.int 7))], next + 1⟩ ∧
    n * n ≤ cost hubEnv (hubDoc n) (hubDoc n) exc (.cls 0) target [] [] ⟨[], next⟩ := by
  have hm : hubEnv.members 0 = [⟨lit "b", .required, .sptr tInt⟩, ⟨lit "refs", .required, .vec (.sptr tInt)⟩] := rfl
  have hf : ∀ {α : Type} (f : Json → α), (hubDoc n).fields.map (fun p => (p.1, f p.2)) =
      List.replicate n (lit "a", f .null) ++ [(lit "b", f (.num (.int 7))), (lit "refs", f (.arr (List.replicate n toB)))] := by
    intro α f
    simp [hubDoc, Json.fields]
  have hb : ∀ target segs, deser hubEnv (hubDoc n) (.num (.int 7)) exc (.sptr tInt) target [n] segs ⟨[], next⟩ =
      .done true (.sptr next (.prim (.int 7))) ⟨[([n], next, tInt, .prim (.int 7))], next + 1⟩ := fun _ _ => rfl
  constructor
  · have h0 : deser hubEnv (hubDoc n) (hubDoc n) exc (.cls 0) target [] [] ⟨[], next⟩ =
        (runMembers hubEnv exc ((hubDoc n).fields.map fun p => (p.1, deser hubEnv (hubDoc n) p.2)) [] [] (hubEnv.members 0) target.members true ⟨[], next⟩).map .obj := by
      rw [deser_cls]
      rfl
    rw [h0, hf, hm]
    simp only [runMembers, (find_hub n _ _ _).1, (find_hub n _ _ _).2.1, hb, deser_vec, (hub_refs n n _ _ _ _ _).1, DRes.map]
    rfl
  · have h0 : cost hubEnv (hubDoc n) (hubDoc n) exc (.cls 0) target [] [] ⟨[], next⟩ = 1 + costMembers hubEnv (hubDoc n) exc
        ((hubDoc n).fields.map fun p => (p.1, p.2, cost hubEnv (hubDoc n) p.2)) [] [] (hubEnv.members 0) target.members ⟨[], next⟩ := by
      rw [cost_node, costNode.eq_def]
      rfl
    rw [h0, hf fun j => (j, cost hubEnv (hubDoc n) j), hm]
    simp only [costMembers, (find_hub n _ _ _).1, (find_hub n _ _ _).2.1, hb, cost_node _ _ (.arr _), costNode, Json.items]
    have := (hub_refs n n exc 0 [n + 1] (Seg.name (cstr (lit "refs")) :: []) next).2
    simp only [reduceCtorEq, if_false]
    have lift : ∀ {a b c : Nat}, a ≤ b → a ≤ c + b := fun h => Nat.le_trans h (Nat.le_add_left _ _)
    exact lift (lift (lift (lift (Nat.le_trans (lift this) (Nat.le_add_right _ _)))))

theorem hub_nodes (n : Nat) : nodes (hubDoc n) = 3 * n + 3 := by
  have h1 : nodesAll (List.replicate n toB) = 2 * n := by
    induction n with
    | zero => rfl
    | succ n ih => rw [List.replicate_succ, nodesAll, ih, show nodes toB = 2 from rfl]; omega
  have h2 : ∀ m rest, nodesFields (List.replicate m (lit "a", .null) ++ rest) = m + nodesFields rest := by
    intro m rest
    induction m with
    | zero => simp
    | succ m ih => rw [List.replicate_succ, List.cons_append, nodesFields, ih, show nodes .null = 1 from rfl]; omega
  simp only [hubDoc, nodes, h2, nodesFields, h1]
  omega

/-- **C74, negation.** Documents with references can take quadratic time: each reference is looked up from the root, member by member. -/
theorem C74_references_quadratic (n : Nat) (target : Val) (next : Nat) :
    nodes (hubDoc n) = 3 * n + 3 ∧
    deserializeThrow hubEnv (.cls 0) (hubDoc n) next = .returned (.obj [.sptr next (.prim (.int 7)), .seq (List.replicate n (.sptr next (.prim (.int 7))))]) ∧
    n * n ≤ costThrow hubEnv (.cls 0) (hubDoc n) next ∧ n * n ≤ costBool hubEnv (.cls 0) (hubDoc n) target next := by
  refine ⟨hub_nodes n, ?_, (hub_read n _ _ _).2, (hub_read n _ _ _).2⟩
  rw [deserializeThrow, (hub_read n _ _ _).1]

/-! ## Examples -/

theorem expr_within {t : Ty} (h : Within exprEnv tExpr t) : t = tExpr ∨ t = .cls 0 ∨ t = .cls 1 ∨ t = .uptr tExpr ∨ t = tInt := by
  induction h with
  | self => exact .inl rfl
  | inner t1 t2 _ hi ih =>
    rcases ih with rfl | rfl | rfl | rfl | rfl
    · cases hi with
      | variant _ _ ht =>
        simp only [List.mem_cons, List.not_mem_nil, or_false] at ht
        rcases ht with rfl | rfl <;> simp
    · cases hi with
      | cls _ m hm =>
        rw [neg_members] at hm
        simp only [List.mem_cons, List.not_mem_nil, or_false] at hm
        rcases hm with rfl | rfl <;> simp
    · cases hi with
      | cls _ m hm =>
        rw [not_members] at hm
        simp only [List.mem_cons, List.not_mem_nil, or_false] at hm
        rcases hm with rfl | rfl <;> simp
    · cases hi with
      | uptr => simp
    · cases hi

theorem expr_bounded : Bounded exprEnv 4 2 2 tExpr := by
  intro u hu
  rcases expr_within hu with rfl | rfl | rfl | rfl | rfl <;> refine ⟨by decide, by decide, fun c hc => ?_⟩ <;> cases hc <;> decide

theorem expr_distinct : exprEnv.DistinctNames := by
  intro c
  match c with
  | 0 => decide +kernel
  | 1 => decide +kernel
  | n + 2 => exact List.nodup_nil

theorem nots_keys (n : Nat) : NoKeys [lit "$ref"] (notsDoc n) := by
  induction n with
  | zero => simp only [notsDoc, NoKeys, NoKeysFields]; decide +kernel
  | succ n ih =>
    simp only [notsDoc, NoKeys, NoKeysFields, ih]; decide +kernel

/-- Two classes: at most `2 ^ depth * 16 * size`. -/
example (n : Nat) (next : Nat) : costThrow exprEnv tExpr (notsDoc n) next ≤ 2 ^ (notsDoc n).depth * (4 * (2 + 2) * nodes (notsDoc n)) :=
  (C74_bound exprEnv expr_distinct 4 2 2 (by decide) tExpr expr_bounded (notsDoc n) (nots_keys n) (.prim .null) next).2

theorem items_bounded : Bounded sharedEnv 2 3 1 tItems := by
  intro u hu
  rcases items_within hu with rfl | rfl | rfl | rfl | rfl <;> refine ⟨by decide, by decide, fun c hc => ?_⟩ <;> cases hc
  decide

/-- `[{"id": 1}, {"id": 2, "note": "x"}]`: at most 2 · 5 · 6 steps -/
example (next : Nat) : costThrow sharedEnv tItems (.arr [.obj [(lit "id", .num (.int 1))], .obj [(lit "id", .num (.int 2)), (lit "note", .str (lit "x"))]]) next ≤ 60 :=
  (C74_linear_partial sharedEnv shared_distinct 2 3 tItems items_bounded _ (by simp only [NoKeys, NoKeysAll, NoKeysFields]; decide +kernel) (.prim .null) next).2

/-- `[{"id": 1}, {"$ref": "/0"}]` -/
example (next : Nat) : costThrow sharedEnv tItems (.arr [.obj [(lit "id", .num (.int 1))], .obj [(lit "$ref", .str (lit "/0"))]]) next ≤ 2 * (3 + 2 + 2 * 5) * 5 :=
  (C74_references_partial sharedEnv shared_distinct 2 3 tItems items_bounded _ (.prim .null) next).2

end Verif.Props
