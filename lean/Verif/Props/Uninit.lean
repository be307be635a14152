import Verif.Uninit
import Verif.Props.ParseMore
import Verif.Props.Read

/-!
# C99: no contents of variables that were never written
-/

namespace Verif.Props
open Verif.Core Verif.Numeric Verif.Demo

/-- **C99, `bool deserialize`.** What is read from an accepted document does not depend on what the local
variables `T item;` and `T value;` of the readers contain, nor on the variable that is read into, except for
the default members, which are meant to keep their value.

Missing: documents with a bad member that is masked by a later good one (see `C99_bool_uninitialised`); types
with shared pointers are in `C99_shared_bool_partial`. -/
theorem C99_bool_partial (env : Env) (hu : env.Unshared) (t : Ty) (ht : t.unshared = true) (root : Json) (hc : Calm env root)
    (hun : Unmasked env t root) (f : Ty → Val) (hF : AlikeFresh env f t root) (target target' : Val) (ha : Alike env t target target')
    (next next' : Nat) (v : Val) :
    deserializeBool env t root target next = some (true, v) ↔ deserializeBool (env.withFresh f) t root target' next' = some (true, v) := by
  rw [(C32_exact_partial env hu t ht root hc hun target next).1,
    (C32_exact_partial (env.withFresh f) hu t ht root (hc.withFresh f) (hun.withFresh f) target' next').1]
  exact (decodes_alike_iff env f t root hF target target' v ha).symm

/-- **C99, `T deserialize`.** The same for the reader that throws, whose result is a local variable, too.

Missing: bad members masked inside a variant; types with shared pointers are in `C99_shared_throw_partial`. -/
theorem C99_throw_partial (env : Env) (hu : env.Unshared) (t : Ty) (ht : t.unshared = true) (root : Json) (hc : Calm env root)
    (hun : VariantsUnmasked env t root) (f : Ty → Val) (hF : AlikeFresh env f t root) (next next' : Nat) (v : Val) :
    deserializeThrow env t root next = .returned v ↔ deserializeThrow (env.withFresh f) t root next' = .returned v := by
  rw [(C33_exact_partial env hu t ht root hc hun next).2, (C33_exact_partial (env.withFresh f) hu t ht root (hc.withFresh f) (hun.withFresh f) next').2]
  exact (decodes_alike_iff env f t root hF _ _ v (hF.1 t root .self)).symm

/-- **C99, `bool parse`.** The streaming parser reads into new objects that are initialised, whatever is parsed
and whatever the outcome. -/
theorem C99_parse (env : Env) (f : Ty → Val) (host : Host) (t : Ty) (feed : Feed) (target : Val) (n : Nat) :
    parseBool (env.withFresh f) host t feed target n = parseBool env host t feed target n :=
  parseBool_withFresh env f host t feed target n

/-- **C99, `T parse`.** The result does not depend on the contents of the local variable, if the document has
every member of each class, and there are no containers outside of pointers and optional members.

Missing: containers that are not empty in a new object, and members that are not in the document (see
`C99_parse_uninitialised`). -/
theorem C99_parse_throw_partial (env : Env) (hd : env.DistinctNames) (host : Host) (hb : TablesBuilt env host) (t : Ty) (j : Json)
    (h : Overwritten env t j) (f : Ty → Val) (n : Nat) (v : Val) :
    parseThrow env host t (.document j) n = .returned v ↔ parseThrow (env.withFresh f) host t (.document j) n = .returned v := by
  have key := C40_parser_target_partial env hd host hb t j h (env.fresh t) (f t) v n
  have hb' := parseBool_withFresh env f host t (.document j) (f t) n
  have both : ∀ (env : Env), parseThrow env host t (.document j) n = .returned v ↔ parseBool env host t (.document j) (env.fresh t) n = .accepted v := by
    intro env
    unfold parseThrow
    cases parseBool env host t (.document j) (env.fresh t) n <;> simp
  rw [both, both, key, ← hb']
  rfl

/-! ## Negations -/

/-- `struct Rated { std::optional<int> a; int b; };` where a local variable of type `int` holds `k`, and a local
variable of type `Rated` holds `k` in `b`. -/
def ratedClass (k : Int) : Env := { plainEnv with
  classes := fun _ => ⟨lit "Rated", [⟨lit "a", .optional, tInt⟩, ⟨lit "b", .required, tInt⟩]⟩
  fresh := fun t => match t with | .cls _ => .obj [.absent, .prim (.int k)] | _ => .prim (.int k) }

/-- **C99, negation.** `{"a": "x", "b": 1}` is accepted by `bool deserialize`, and the optional member holds what
was in the local variable. -/
theorem C99_bool_uninitialised (k : Int) : deserializeBool (ratedClass k) (.cls 0)
    (.obj [(lit "a", .str (lit "x")), (lit "b", .num (.int 1))]) (.obj [.absent, .prim (.int 0)]) 0 =
    some (true, .obj [.present (.prim (.int k)), .prim (.int 1)]) := rfl

/-- **C99, negation.** `T parse` on the document `{}` returns an object whose required member was never written. -/
theorem C99_parse_uninitialised (k : Int) : parseThrow (ratedClass k) host (.cls 0) (.document (.obj [])) 0 =
    .returned (.obj [.absent, .prim (.int k)]) := rfl

/-! ## Examples -/

/-- Two contents of new variables: an `Item` has 4 in its default member, the rest is different. -/
def someFresh : Ty → Val
  | .cls _ => .obj [.prim (.int 9), .absent, .prim (.int 4)]
  | _ => .prim (.int 9)

/-- The other. -/
def otherFresh : Ty → Val
  | .cls _ => .obj [.prim (.str (lit "junk")), .prim .null, .prim (.int 4)]
  | _ => .prim (.int 77)

/-- `{"id": 1, "extra": null}` -/
def thinItem : Json := .obj [(lit "id", .num (.int 1)), (lit "extra", .null)]

theorem alike_items (a b a' b' : Val) : Alike plainEnv (.cls 1) (.obj [a, b, .prim (.int 4)]) (.obj [a', b', .prim (.int 4)]) := by
  refine .cls 1 _ _ rfl ?_ ?_
  · intro i m hm hk
    match i with
    | 0 => cases hm; cases hk
    | 1 => cases hm; cases hk
    | 2 => exact ⟨_, rfl, rfl⟩
    | i + 3 => simp [Env.members, plainEnv, plainClasses, item] at hm
  · intro i m x x' hm _ _ _
    have : m.ty = tInt ∨ m.ty = tStr := by
      have := List.mem_of_getElem? hm
      simp only [Env.members, plainEnv, plainClasses, item, List.mem_cons, List.not_mem_nil, or_false] at this
      rcases this with rfl | rfl | rfl <;> simp
    rcases this with h | h <;> rw [h] <;> exact .other _ _ _ (by simp) (by simp)

theorem thin_parts : ∀ t' j', Part (plainEnv.withFresh someFresh) (.cls 1) thinItem t' j' → t' = .cls 1 ∨ ∃ p, t' = .prim p := by
  intro t' j' h
  induction h with
  | self => exact .inl rfl
  | child t1 j1 t2 j2 _ hc ih =>
    rcases ih with rfl | ⟨p, rfl⟩
    · cases hc with
      | cls _ _ m i _ hm hf =>
        have : m = ⟨lit "id", .required, tInt⟩ ∨ m = ⟨lit "note", .optional, tStr⟩ ∨ m = ⟨lit "count", .default, tInt⟩ := by
          simpa [Env.members, Env.withFresh, plainEnv, plainClasses, item] using hm
        rcases this with rfl | rfl | rfl <;> exact .inr ⟨_, rfl⟩
    · cases hc

theorem thin_alike : AlikeFresh (plainEnv.withFresh someFresh) otherFresh (.cls 1) thinItem := by
  constructor
  · intro t' j' h
    rcases thin_parts t' j' h with rfl | ⟨p, rfl⟩
    · exact (alike_items _ _ _ _).withFresh
    · exact .other _ _ _ (by simp) (by simp)
  · intro t' j' h
    rcases thin_parts _ j' h with h | ⟨p, h⟩ <;> cases h

theorem thin_decodes (target : Val) : Decodes (plainEnv.withFresh someFresh) (.cls 1) thinItem (.obj [target, target, .prim (.int 4)])
    (.obj [.prim (.int 1), .absent, .prim (.int 4)]) := by
  refine .cls 1 _ _ _ ?_
  refine .present _ ⟨lit "id", .required, tInt⟩ _ _ 0 (.num (.int 1)) _ _ rfl (by decide) (.prim _ _ _ _ (.int _ 1 (by decide))) ?_
  refine .none _ ⟨lit "note", .optional, tStr⟩ _ _ _ rfl rfl ?_
  exact .keep _ ⟨lit "count", .default, tInt⟩ _ _ _ rfl rfl (.nil _ _)

theorem thin_unmasked : Unmasked (plainEnv.withFresh someFresh) (.cls 1) thinItem := by
  refine Unmasked.of (fun c fields h1 h2 => ?_) (fun t' j' h => ?_)
  · cases h1
    cases h2
    rintro ⟨m, hm, hb⟩
    exfalso
    refine exclusive _ thinItem (.cls 1) ?_ _ _ (thin_decodes .nullptr)
    rcases hb with ⟨i, j, h1, h2⟩ | ⟨h1, h2⟩
    · exact .member 1 _ m i j hm h1 h2
    · exact .missing 1 _ m hm h1 h2
  · cases h with
    | cls _ _ m i _ hm hf =>
      have : m = ⟨lit "id", .required, tInt⟩ ∨ m = ⟨lit "note", .optional, tStr⟩ ∨ m = ⟨lit "count", .default, tInt⟩ := by
        simpa [Env.members, Env.withFresh, plainEnv, plainClasses, item] using hm
      rcases this with rfl | rfl | rfl <;> exact Unmasked.prim _ _ _

theorem thin_calm : Calm (plainEnv.withFresh someFresh) thinItem := by simp [thinItem, Calm, CalmFields]

example (a b a' b' v : Val) (next next' : Nat) :
    deserializeBool (plainEnv.withFresh someFresh) (.cls 1) thinItem (.obj [a, b, .prim (.int 4)]) next = some (true, v) ↔
    deserializeBool (plainEnv.withFresh otherFresh) (.cls 1) thinItem (.obj [a', b', .prim (.int 4)]) next' = some (true, v) :=
  C99_bool_partial (plainEnv.withFresh someFresh) plainEnv_unshared (.cls 1) rfl thinItem thin_calm thin_unmasked otherFresh thin_alike _ _
    (alike_items a b a' b').withFresh next next' v

example : deserializeThrow (plainEnv.withFresh otherFresh) (.cls 1) thinItem 0 = .returned (.obj [.prim (.int 1), .absent, .prim (.int 4)]) :=
  (C99_throw_partial (plainEnv.withFresh someFresh) plainEnv_unshared (.cls 1) rfl thinItem thin_calm
    (fun ts j' hp => by rcases thin_parts _ j' hp with h | ⟨p, h⟩ <;> cases h) otherFresh thin_alike 0 0 _).1 rfl

example (f : Ty → Val) (target : Val) : parseBool (Demo.env.withFresh f) host (.cls 1) (.document thinItem) target 0 =
    parseBool Demo.env host (.cls 1) (.document thinItem) target 0 := C99_parse Demo.env f host (.cls 1) _ target 0

example (f : Ty → Val) (v : Val) : parseThrow Demo.env host (.cls 1) (.document fullItem) 0 = .returned v ↔
    parseThrow (Demo.env.withFresh f) host (.cls 1) (.document fullItem) 0 = .returned v := by
  refine C99_parse_throw_partial Demo.env demo_distinct host tables_built (.cls 1) fullItem (.cls 1 _ (by decide) ?_) f 0 v
  intro p hp m hm _ _
  have : m = ⟨lit "id", .required, tInt⟩ ∨ m = ⟨lit "note", .optional, tStr⟩ ∨ m = ⟨lit "count", .default, tInt⟩ := by
    simpa [Env.members, Demo.env, item] using hm
  rcases this with rfl | rfl | rfl <;> exact .prim _ _

end Verif.Props
