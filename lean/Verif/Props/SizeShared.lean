import Verif.SizeShared
import Verif.Props.Size
import Verif.Props.References

/-!
# C92 with shared pointers
-/

namespace Verif.Props
open Verif.Core Verif.Demo Verif.Numeric Verif.Text

/-- **C92 for all types, partial.** Documents without references: what the DOM reader stores (also when it fails) is smaller than the document and
what was in the variable before.

Missing: references. -/
theorem C92_read_shared_partial (env : Env) (hn : env.DistinctNames) (hs : env.Slim) (t : Ty) (root : Json) (hr : root.noRef) (target : Val) (next : Nat)
    (ok : Bool) (v : Val) (h : deserializeBool env t root target next = some (ok, v)) : v.dyn < root.extent + target.dyn := by
  unfold deserializeBool at h
  cases hp : deser env root root false t target [] [] ⟨[], next⟩ with
  | ub => rw [hp] at h; cases h
  | threw s e => rw [hp] at h; cases h
  | done o w st =>
    rw [hp] at h
    cases h
    exact read_size_shared env hs root hn root t hr _ _ _ _ _ _ _ _ hp

/-- **C92 for all types, partial.** The same for the variant that throws.

Missing: references. -/
theorem C92_throw_shared_partial (env : Env) (hn : env.DistinctNames) (hs : env.Slim) (t : Ty) (root : Json) (hr : root.noRef) (next : Nat) (v : Val)
    (h : deserializeThrow env t root next = .returned v) : v.dyn < root.extent := by
  unfold deserializeThrow at h
  cases hp : deser env root root true t (env.fresh t) [] [] ⟨[], next⟩ with
  | ub => rw [hp] at h; cases h
  | threw s e => rw [hp] at h; cases h
  | done o w st =>
    rw [hp] at h
    cases h
    have := read_size_shared env hs root hn root t hr _ _ _ _ _ _ _ _ hp
    rw [hs.fresh] at this
    exact this

/-- **C92 with references.** If at most `D` alternatives of a variant are arrays, and at most `D` are objects: there is a list of all objects that
the value refers to and that were not in the variable before, and what they hold, with what the value holds itself, is less than the size of the
document, where everything counts at most `D` times for each level of the document. -/
theorem C92_objects_bound (env : Env) (hn : env.DistinctNames) (hs : env.Vacant) (D : Nat) (hD : 1 ≤ D) (t : Ty) (hc : Choices env D t) (root : Json)
    (target : Val) (next : Nat) (ok : Bool) (v : Val) (h : deserializeBool env t root target next = some (ok, v)) :
    ∃ L : List (Nat × Val), (∀ o ∈ v.objects, o ∈ L ∨ o ∈ target.objects) ∧ v.bulk + holdings L < D ^ root.depth * root.extent + target.bulk := by
  unfold deserializeBool at h
  cases hp : deser env root root false t target [] [] ⟨[], next⟩ with
  | ub => rw [hp] at h; cases h
  | threw s e => rw [hp] at h; cases h
  | done o w st =>
    rw [hp] at h
    cases h
    obtain ⟨L, h1, -, h3, -⟩ := (hoards env hs root D hn root t hc).all hc _ _ _ _ _ _ _ _ hp
    have h4 := weighed_depth D hD root
    exact ⟨L, fun o ho => (h3 o ho).imp id fun h => h.resolve_right (by simp [DState.objects]), by omega⟩

/-- **C92 with references, partial.** If at most one alternative of a variant is an array, and at most one an object (and for types without variants):
the value and the objects that it refers to, each counted once, are smaller than the document and what was in the variable before.

Missing: variants with several alternatives of the same kind (`C92_refused_alternative`). -/
theorem C92_objects_partial (env : Env) (hn : env.DistinctNames) (hs : env.Vacant) (t : Ty) (hc : Choices env 1 t) (root : Json)
    (target : Val) (next : Nat) (ok : Bool) (v : Val) (h : deserializeBool env t root target next = some (ok, v)) :
    ∃ L : List (Nat × Val), (∀ o ∈ v.objects, o ∈ L ∨ o ∈ target.objects) ∧ v.bulk + holdings L < root.extent + target.bulk := by
  have h1 := C92_objects_bound env hn hs 1 (Nat.le_refl _) t hc root target next ok v h
  rwa [Nat.one_pow, Nat.one_mul] at h1

/-- **C92 with references, partial.** The same for the variant that throws.

Missing: variants with several alternatives of the same kind. -/
theorem C92_objects_throw_partial (env : Env) (hn : env.DistinctNames) (hs : env.Vacant) (t : Ty) (hc : Choices env 1 t) (root : Json) (next : Nat) (v : Val)
    (h : deserializeThrow env t root next = .returned v) : ∃ L : List (Nat × Val), (∀ o ∈ v.objects, o ∈ L) ∧ v.bulk + holdings L < root.extent := by
  unfold deserializeThrow at h
  cases hp : deser env root root true t (env.fresh t) [] [] ⟨[], next⟩ with
  | ub => rw [hp] at h; cases h
  | threw s e => rw [hp] at h; cases h
  | done o w st =>
    rw [hp] at h
    cases h
    obtain ⟨L, h1, -, h3, -⟩ := (hoards env hs root 1 hn root t hc).all hc _ _ _ _ _ _ _ _ hp
    rw [weighed_one, (hs.fresh t).1] at h1
    rw [(hs.fresh t).2] at h3
    exact ⟨L, fun o ho => (h3 o ho).elim id fun h => h.elim (by simp) (by simp [DState.objects]), by omega⟩

/-- **C92.** If each pointer is counted with its object, the two ways of counting agree. -/
theorem C92_measures (v : Val) : v.dyn = v.bulk + holdings v.objects := dyn_eq v

/-! ## Alternatives that are refused -/

/-- `struct Whole { std::shared_ptr<std::vector<std::string>> x; int y; }`, `struct Each { std::vector<std::shared_ptr<std::string>> x; }` -/
def twiceEnv : Env := { Demo.env with classes := fun c => match c with
  | 0 => ⟨lit "Whole", [⟨lit "x", .required, .sptr (.vec tStr)⟩, ⟨lit "y", .required, tInt⟩]⟩
  | 1 => ⟨lit "Each", [⟨lit "x", .required, .vec (.sptr tStr)⟩]⟩
  | _ => ⟨lit "Empty", []⟩ }

/-- `std::pair<std::variant<Whole, Each>, std::shared_ptr<std::vector<std::string>>>` -/
abbrev tTwice : Ty := .tuple [.variant [.cls 0, .cls 1], .sptr (.vec tStr)]

/-- `[{"x": ["…"]}, {"$ref": "/0/x"}]` -/
def twiceDoc (s : Str) : Json := .arr [.obj [(lit "x", .arr [.str s])], .obj [(lit "$ref", .str (lit "/0/x"))]]

/-- **C92, negation.** The condition on variants is needed: `Whole` is refused, because there is no `y`, but its vector stays in the table of references,
where the second component finds it, beside the string of `Each`. The text is in memory twice. -/
theorem C92_refused_alternative (s : Str) : ∃ v, deserializeThrow twiceEnv tTwice (twiceDoc s) 0 = .returned v ∧
    v.objects = [(1, .prim (.str s)), (0, .seq [.prim (.str s)])] ∧ v.bulk + holdings v.objects = 2 * s.length + 2 ∧ (twiceDoc s).extent = s.length + 17 := by
  refine ⟨.tup [.alt 1 (.obj [.seq [.sptr 1 (.prim (.str s))]]), .sptr 0 (.seq [.prim (.str s)])], by with_unfolding_all rfl, rfl, ?_, ?_⟩
  · simp only [Val.bulk, partsBulk, itemsBulk, PVal.dyn, Val.objects, objectsAll, holdings, List.append_nil, List.nil_append, List.cons_append]
    omega
  · simp [twiceDoc, Json.extent, extentFields, extentItems, lit]
    omega

/-! ## Examples -/

theorem shared_vacant : sharedEnv.Vacant := by
  constructor <;> intro t <;> simp only [sharedEnv] <;> split <;> exact ⟨rfl, rfl⟩

theorem items_choices : Choices sharedEnv 1 tItems := by
  intro u hu
  rcases items_within hu with rfl | rfl | rfl | rfl | rfl <;> decide

/-- `[{"id": 1, "note": "hello"}, {"$ref": "/0"}]` -/
def helloTwice : Json := .arr [.obj [(lit "id", .num (.int 1)), (lit "note", .str (lit "hello"))], .obj [(lit "$ref", .str (lit "/0"))]]

/-- Two pointers, and one object with five bytes of text. -/
example : ∃ v, deserializeThrow sharedEnv tItems helloTwice 0 = .returned v ∧ v.bulk = 2 ∧
    v.objects = [(0, .obj [.prim (.int 1), .present (.prim (.str (lit "hello"))), .prim (.int 7)]), (0, .obj [.prim (.int 1), .present (.prim (.str (lit "hello"))), .prim (.int 7)])] :=
  ⟨.seq [.sptr 0 (.obj [.prim (.int 1), .present (.prim (.str (lit "hello"))), .prim (.int 7)]),
    .sptr 0 (.obj [.prim (.int 1), .present (.prim (.str (lit "hello"))), .prim (.int 7)])], by with_unfolding_all rfl, rfl, rfl⟩

example (v : Val) (h : deserializeThrow sharedEnv tItems helloTwice 0 = .returned v) :
    ∃ L : List (Nat × Val), (∀ o ∈ v.objects, o ∈ L) ∧ v.bulk + holdings L < helloTwice.extent :=
  C92_objects_throw_partial sharedEnv shared_distinct shared_vacant tItems items_choices _ 0 v h

/-- Without references; the variant may have any alternatives. -/
example (v : Val) (h : deserializeThrow twiceEnv (.variant [.cls 0, .cls 1]) (.obj [(lit "x", .arr [.str (lit "ab")])]) 0 = .returned v) : v.dyn < 7 :=
  C92_throw_shared_partial twiceEnv (fun c => by match c with | 0 => decide | 1 => decide | n + 2 => exact List.nodup_nil) ⟨fun _ => rfl, fun _ => rfl⟩ _ _
    (by simp [Json.noRef, Json.noRefFields, Json.noRefAll]; decide +kernel) 0 v h

example : deserializeThrow twiceEnv (.variant [.cls 0, .cls 1]) (.obj [(lit "x", .arr [.str (lit "ab")])]) 0 =
    .returned (.alt 1 (.obj [.seq [.sptr 1 (.prim (.str (lit "ab")))]])) := by with_unfolding_all rfl

end Verif.Props
