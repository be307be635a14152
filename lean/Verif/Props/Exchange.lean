import Verif.Exchange
import Verif.Props.Shuffle

/-!
# C123: containers can be exchanged

The specification is `form` (`Verif.Exchange`): `std::set` and `std::vector` have the same form, so have `std::array` and a tuple of equal types, ordered and
unordered maps, a vector of pairs and a vector of `std::tuple<std::string, T>`, a value and a pointer to it, `float` and `double`.
-/

namespace Verif.Props
open Verif.Core Verif.Numeric Verif.Demo Verif.Shuffle Verif.Exchange

theorem form_unshared (t : Ty) (h : t.unshared = true) : (form t).unshared = true :=
  match t with
  | .prim p => by cases p <;> (rw [form] <;> simp [Ty.unshared])
  | .vec t | .set t | .map _ t => by rw [form]; exact form_unshared t h
  | .uptr t => by rw [form]; exact form_unshared t h
  | .dict t => by
    rw [form]
    have := form_unshared t h
    simp [Ty.unshared, Ty.unshareds, this]
  | .arr n t => by
    rw [form, Ty.unshared, Ty.unshareds_iff]
    intro x hx
    rw [List.eq_of_mem_replicate hx]
    exact form_unshared t h
  | .tuple ts | .variant ts => by
    rw [form, forms_map, Ty.unshared, Ty.unshareds_iff]
    intro x hx
    obtain ⟨y, hm, rfl⟩ := List.mem_map.1 hx
    exact form_unshared y ((Ty.unshareds_iff ts).1 h y hm)
  | .cls c => by rw [form]; rfl
  | .sptr t => by cases h
termination_by sizeOf t
decreasing_by all_goals first | (have := List.sizeOf_lt_of_mem hm; simp; omega) | simp

theorem formEnv_unshared {env : Env} (h : env.Unshared) : (formEnv env).Unshared := by
  intro c m hm
  rw [form_members] at hm
  obtain ⟨m, hm0, rfl⟩ := List.mem_map.1 hm
  exact form_unshared m.ty (h c m hm0)

/-! ## C123 -/

theorem refused_exchange (env env' : Env) (hclk : env.clk = env'.clk) (hs : ShuffledClasses (formEnv env) (formEnv env')) (t t' : Ty)
    (h : Shuffled (form t) (form t')) (exc : Bool) (j : Json) : Refused env exc t j ↔ Refused env' exc t' j :=
  (refused_form_iff env exc t j).trans ((refused_shuffled_iff (env := formEnv env) (env' := formEnv env') hclk hs exc h j).trans (refused_form_iff env' exc t' j).symm)

/-- **C123, types without shared pointers.** If two programs differ only in their choice of containers (types of the same form) and in the order of alternatives,
both readers accept the same documents. -/
theorem C123_verdict (env env' : Env) (hu : env.Unshared) (hu' : env'.Unshared) (hclk : env.clk = env'.clk)
    (hs : ShuffledClasses (formEnv env) (formEnv env')) (t t' : Ty) (ht : t.unshared = true) (ht' : t'.unshared = true) (h : Shuffled (form t) (form t'))
    (root : Json) (hc : Calm env root) (target target' : Val) (next next' : Nat) :
    ((∃ v, deserializeBool env t root target next = some (true, v)) ↔ ∃ v, deserializeBool env' t' root target' next' = some (true, v)) ∧
    ((∃ v, deserializeBool env t root target next = some (false, v)) ↔ ∃ v, deserializeBool env' t' root target' next' = some (false, v)) ∧
    ((∃ v, deserializeThrow env t root next = .returned v) ↔ ∃ v, deserializeThrow env' t' root next' = .returned v) := by
  have hc' := calm_clk hclk root hc
  have b := C32_verdict env hu t ht root hc target next
  have b' := C32_verdict env' hu' t' ht' root hc' target' next'
  have x := C33_verdict env hu t ht root hc next
  have x' := C33_verdict env' hu' t' ht' root hc' next'
  have r := refused_exchange env env' hclk hs t t' h
  exact ⟨b.2.trans ((not_congr (r false root)).trans b'.2.symm), b.1.trans ((r false root).trans b'.1.symm), x.2.trans ((not_congr (r true root)).trans x'.2.symm)⟩

theorem error_exchange (env env' : Env) (hu : env.Unshared) (hu' : env'.Unshared) (hclk : env.clk = env'.clk)
    (hs : ShuffledClasses (formEnv env) (formEnv env')) (t t' : Ty) (ht : t.unshared = true) (ht' : t'.unshared = true) (h : Shuffled (form t) (form t'))
    (root : Json) (hc : Calm env root) (next next' : Nat) (path : Str) (e : Err) (hx : deserializeThrow env t root next = .threw path e) :
    deserializeThrow env' t' root next' = .threw path e := by
  have hc' := calm_clk hclk root hc
  obtain ⟨path', e', hx'⟩ := (C33_verdict env' hu' t' ht' root hc' next').1.2
    ((refused_exchange env env' hclk hs t t' h true root).1 ((C33_verdict env hu t ht root hc next).1.1 ⟨path, e, hx⟩))
  obtain ⟨rel, h1, rfl⟩ := (C81_first_failure env hu t ht root hc next path e).1 hx
  obtain ⟨rel', h2, rfl⟩ := (C81_first_failure env' hu' t' ht' root hc' next' path' e').1 hx'
  have h3 := first_shuffled (env := formEnv env) (env' := formEnv env') hclk hs (first_form h1) _ h
  obtain ⟨rfl, rfl⟩ := C81_one_first_failure (formEnv env') (formEnv_unshared hu') (form t') (form_unshared t' ht') root (calm_clk (env := env') (env' := formEnv env') rfl root hc')
    rel rel' e e' h3 (first_form h2)
  exact hx'

/-- **C123, the error.** What cannot be read is refused with the same error at the same place. -/
theorem C123_error (env env' : Env) (hu : env.Unshared) (hu' : env'.Unshared) (hclk : env.clk = env'.clk)
    (hs : ShuffledClasses (formEnv env) (formEnv env')) (t t' : Ty) (ht : t.unshared = true) (ht' : t'.unshared = true) (h : Shuffled (form t) (form t'))
    (root : Json) (hc : Calm env root) (next next' : Nat) (path : Str) (e : Err) :
    deserializeThrow env t root next = .threw path e ↔ deserializeThrow env' t' root next' = .threw path e :=
  ⟨error_exchange env env' hu hu' hclk hs t t' ht ht' h root hc next next' path e,
    error_exchange env' env hu' hu hclk.symm hs.symm t' t ht' ht h.symm root (calm_clk hclk root hc) next' next path e⟩

/-- **C123 for all types** on documents without references; shared pointers count as pointers (`Ty.lower`).

Missing: documents with references. -/
theorem C123_shared_partial (env env' : Env) (hclk : env.clk = env'.clk) (hs : ShuffledClasses (formEnv env.lower) (formEnv env'.lower)) (t t' : Ty)
    (h : Shuffled (form t.lower) (form t'.lower)) (root : Json) (hn : root.noRef) (hc : Calm env root) (target target' : Val) (next next' : Nat) :
    ((∃ v, deserializeBool env t root target next = some (true, v)) ↔ ∃ v, deserializeBool env' t' root target' next' = some (true, v)) ∧
    ((∃ v, deserializeBool env t root target next = some (false, v)) ↔ ∃ v, deserializeBool env' t' root target' next' = some (false, v)) ∧
    ((∃ v, deserializeThrow env t root next = .returned v) ↔ ∃ v, deserializeThrow env' t' root next' = .returned v) ∧
    ∀ path e, deserializeThrow env t root next = .threw path e ↔ deserializeThrow env' t' root next' = .threw path e := by
  have hc' := calm_clk hclk root hc
  have b := C32_shared_verdict env t root hn hc target next
  have b' := C32_shared_verdict env' t' root hn hc' target' next'
  have x := C33_shared_verdict env t root hn hc next
  have x' := C33_shared_verdict env' t' root hn hc' next'
  have r := refused_exchange env.lower env'.lower hclk hs t.lower t'.lower h
  refine ⟨b.2.trans ((not_congr (r false root)).trans b'.2.symm), b.1.trans ((r false root).trans b'.1.symm), x.2.trans ((not_congr (r true root)).trans x'.2.symm),
    fun path e => ?_⟩
  exact ((throw_same env t root hn next).1 path e).trans ((C123_error env.lower env'.lower (lower_env_unshared env) (lower_env_unshared env') hclk hs t.lower t'.lower
    (lower_unshared t) (lower_unshared t') h root ((calm_lower env root).2 hc) next next' path e).trans ((throw_same env' t' root hn next').1 path e).symm)

/-- A set of points with a name, and a vector of shared points with the coordinates in an array. -/
def oldPoints : Ty := .map true (.set (.tuple [tDbl, tDbl]))

/-- The new type. -/
def newPoints : Ty := .map false (.vec (.sptr (.arr 2 (.prim (.flt .float)))))

theorem points_form : Shuffled (form oldPoints.lower) (form newPoints.lower) := shuffled_refl (form oldPoints.lower)

/-- `{"a": [[1, 2], [1, 2]]}` -/
def twoPoints : Json := .obj [(lit "a", .arr [.arr [.num (.int 1), .num (.int 2)], .arr [.num (.int 1), .num (.int 2)]])]

/-- `{"a": [[1, 2], [1]]}` -/
def shortPoint : Json := .obj [(lit "a", .arr [.arr [.num (.int 1), .num (.int 2)], .arr [.num (.int 1)]])]

theorem points_classes (env : Env) : ShuffledClasses (formEnv env.lower) (formEnv env.lower) := fun c => ⟨rfl, fun k m m' h h' => by
  rw [h] at h'; cases h'; exact ⟨rfl, rfl, shuffled_refl _⟩⟩

example (target : Val) (next : Nat) : ∃ v, deserializeThrow Demo.env newPoints twoPoints next = .returned v :=
  (C123_shared_partial Demo.env Demo.env rfl (points_classes _) oldPoints newPoints points_form twoPoints
    (by simp only [twoPoints, Json.noRef, Json.noRefFields, Json.noRefAll, and_true, List.map_cons, List.map_nil]; decide +kernel)
    (by simp [twoPoints, Calm, CalmFields, CalmAll]) target target next next).2.2.1.1 ⟨_, rfl⟩

example (target : Val) (next : Nat) : deserializeThrow Demo.env newPoints shortPoint next = .threw (lit "/a/1") (.sizeMismatch 2 1) :=
  ((C123_shared_partial Demo.env Demo.env rfl (points_classes _) oldPoints newPoints points_form shortPoint
    (by simp only [shortPoint, Json.noRef, Json.noRefFields, Json.noRefAll, and_true, List.map_cons, List.map_nil]; decide +kernel)
    (by simp [shortPoint, Calm, CalmFields, CalmAll]) target target next next).2.2.2 _ _).1 rfl

/-- The same without shared pointers. -/
def plainPoints : Ty := .map false (.vec (.uptr (.arr 2 (.prim (.flt .float)))))

theorem plain_classes : ShuffledClasses (formEnv plainEnv) (formEnv plainEnv) := fun c => ⟨rfl, fun k m m' h h' => by
  rw [h] at h'; cases h'; exact ⟨rfl, rfl, shuffled_refl _⟩⟩

example (target : Val) (next : Nat) : ∃ v, deserializeBool plainEnv plainPoints twoPoints target next = some (true, v) :=
  (C123_verdict plainEnv plainEnv plainEnv_unshared plainEnv_unshared rfl plain_classes oldPoints plainPoints rfl rfl (shuffled_refl (form oldPoints)) twoPoints
    (by simp [twoPoints, Calm, CalmFields, CalmAll]) target target next next).1.1 ⟨_, rfl⟩

example (next : Nat) : deserializeThrow plainEnv plainPoints shortPoint next = .threw (lit "/a/1") (.sizeMismatch 2 1) :=
  (C123_error plainEnv plainEnv plainEnv_unshared plainEnv_unshared rfl plain_classes oldPoints plainPoints rfl rfl (shuffled_refl (form oldPoints)) shortPoint
    (by simp [shortPoint, Calm, CalmFields, CalmAll]) next next _ _).1 rfl

/-- **C123, negation.** `[1, {"$ref": "/0"}]` can be read into a vector of shared pointers, not into a vector of unique pointers, which has the same form. -/
theorem C123_references (next : Nat) :
    form (Ty.lower (.vec (.sptr tInt))) = form (Ty.lower (.vec (.uptr tInt))) ∧
    (∃ v, deserializeThrow Demo.env (.vec (.sptr tInt)) (.arr [.num (.int 1), .obj [(lit "$ref", .str (lit "/0"))]]) next = .returned v) ∧
    ∃ path e, deserializeThrow Demo.env (.vec (.uptr tInt)) (.arr [.num (.int 1), .obj [(lit "$ref", .str (lit "/0"))]]) next = .threw path e :=
  ⟨rfl, ⟨_, rfl⟩, _, _, rfl⟩

end Verif.Props
