import Verif.DerivedWrite
import Verif.Props.Cost

/-!
# C75: derived classes are read and written like classes with all the members

The property demands of `deserializeBoolD`, `deserializeThrowD` and `writeToStringD`, which follow the `persist` functions of derived classes of README.md,
what the flat model does, in which a class has all its members itself.
-/

namespace Verif.Props
open Verif.Core Verif.Numeric Verif.EnumConv Verif.Demo

/-! ## Without base classes -/

/-- **C75.** The two models agree for types in which there are no derived classes, so the former extends the latter. -/
theorem C75_flat (env : Env) (own : Nat → Nat) (t : Ty) (hb : Baseless env own t) :
    (∀ root target next, deserializeBoolD env own t root target next = deserializeBool env t root target next) ∧
    (∀ root next, deserializeThrowD env own t root next = deserializeThrow env t root next) ∧
    (∀ v before, writeToStringD env own t v before = writeToString env t v before) := by
  refine ⟨fun root target next => ?_, fun root next => ?_, fun v before => ?_⟩
  · rw [deserializeBoolD, deserializeBool, deserD_eq env own root root t hb]
    rfl
  · rw [deserializeThrowD, deserializeThrow, deserD_eq env own root root t hb]
    rfl
  · rw [writeToStringD, writeToString, wrD_eq env own v t hb]
    rfl

/-! ## Derived classes -/

/-- `struct Shape { std::string name; }`, `struct Circle : Shape { double radius; }`, `struct Label : Shape { std::string text; }` and
`struct Frame { Circle outer; std::vector<Label> labels; }` -/
def shapeEnv : Env := { Demo.env with
  classes := fun c => match c with
    | 0 => ⟨lit "Shape", [⟨lit "name", .required, tStr⟩]⟩
    | 1 => ⟨lit "Circle", [⟨lit "name", .required, tStr⟩, ⟨lit "radius", .required, tDbl⟩]⟩
    | 2 => ⟨lit "Label", [⟨lit "name", .required, tStr⟩, ⟨lit "text", .required, tStr⟩]⟩
    | 3 => ⟨lit "Frame", [⟨lit "outer", .required, .cls 1⟩, ⟨lit "labels", .required, .vec (.cls 2)⟩]⟩
    | _ => ⟨[], []⟩ }

/-- The members handled by the original archive: those of `Shape`, and all of `Frame`. -/
def shapeOwn : Nat → Nat
  | 3 => 2
  | _ => 1

/-- No class of this kind is derived. -/
example : Baseless shapeEnv shapeOwn (.vec (.cls 0)) := by
  have h : ∀ t, Within shapeEnv (.vec (.cls 0)) t → t = .vec (.cls 0) ∨ t = .cls 0 ∨ t = tStr := by
    intro t h
    induction h with
    | self => exact .inl rfl
    | inner t1 t2 _ hi ih =>
      rcases ih with rfl | rfl | rfl
      · cases hi; simp
      · cases hi with
        | cls _ m hm =>
          simp only [shapeEnv, Env.members, List.mem_singleton] at hm
          subst hm
          simp
      · cases hi
  intro c hc
  rcases h _ hc with h | h | h <;> cases h
  exact Nat.le_refl _

/-- **C75.** The throwing reader reads derived classes like classes with all the members.

Missing: documents with references and variants of derived classes (`C75_wrong_alternative`). -/
theorem C75_throw_partial (env : Env) (own : Nat → Nat) (t : Ty) (hc : Careful env own t) (root : Json) (hk : NoKeys [lit "$ref"] root) (next : Nat) :
    deserializeThrowD env own t root next = deserializeThrow env t root next := by
  have h := deserD_tri env own root root t hk hc (env.fresh t) [] [] ⟨[], next⟩
  rw [deserializeThrowD, deserializeThrow]
  revert h
  generalize deserD env own root root true t (env.fresh t) [] [] ⟨[], next⟩ = x
  generalize deser env root root true t (env.fresh t) [] [] ⟨[], next⟩ = x'
  generalize deserD env own root root false t (env.fresh t) [] [] ⟨[], next⟩ = y
  intro h
  cases h <;> rfl

/-- **C75.** What a class with all the members accepts is accepted by the boolean reader for derived classes too, with the same value.

Missing: the converse (`C75_missing_accepted`), references, variants of derived classes. -/
theorem C75_bool_partial (env : Env) (own : Nat → Nat) (t : Ty) (hc : Careful env own t) (root : Json) (hk : NoKeys [lit "$ref"] root) (next : Nat) (v : Val)
    (h : deserializeThrow env t root next = .returned v) : deserializeBoolD env own t root (env.fresh t) next = some (true, v) := by
  have h' := deserD_tri env own root root t hk hc (env.fresh t) [] [] ⟨[], next⟩
  rw [deserializeThrow] at h
  rw [deserializeBoolD]
  revert h h'
  generalize deserD env own root root true t (env.fresh t) [] [] ⟨[], next⟩ = x
  generalize deser env root root true t (env.fresh t) [] [] ⟨[], next⟩ = x'
  generalize deserD env own root root false t (env.fresh t) [] [] ⟨[], next⟩ = y
  intro h h'
  cases h' with
  | ub => cases h
  | threw => cases h
  | done w st => cases h; rfl

/-- `{"outer": {"name": "c", "radius": 2}, "labels": [{"name": "l", "text": "t"}]}` -/
def frameDoc : Json := .obj [(lit "outer", .obj [(lit "name", .str (lit "c")), (lit "radius", .num (.int 2))]),
  (lit "labels", .arr [.obj [(lit "name", .str (lit "l")), (lit "text", .str (lit "t"))]])]

/-- `Frame{Circle{"c", 2.0}, {Label{"l", "t"}}}` -/
def frameVal : Val := .obj [.obj [.prim (.str (lit "c")), .prim (.flt (.fin false 0 1))], .seq [.obj [.prim (.str (lit "l")), .prim (.str (lit "t"))]]]

theorem frame_within {t : Ty} (h : Within shapeEnv (.cls 3) t) : t = .cls 3 ∨ t = .cls 1 ∨ t = .vec (.cls 2) ∨ t = .cls 2 ∨ t = tStr ∨ t = tDbl := by
  induction h with
  | self => exact .inl rfl
  | inner t1 t2 _ hi ih =>
    rcases ih with rfl | rfl | rfl | rfl | rfl | rfl
    · cases hi with
      | cls _ m hm =>
        simp only [shapeEnv, Env.members, List.mem_cons, List.not_mem_nil, or_false] at hm
        rcases hm with rfl | rfl <;> simp
    · cases hi with
      | cls _ m hm =>
        simp only [shapeEnv, Env.members, List.mem_cons, List.not_mem_nil, or_false] at hm
        rcases hm with rfl | rfl <;> simp
    · cases hi; simp
    · cases hi with
      | cls _ m hm =>
        simp only [shapeEnv, Env.members, List.mem_cons, List.not_mem_nil, or_false] at hm
        rcases hm with rfl | rfl <;> simp
    · cases hi
    · cases hi

/-- No variants. -/
theorem frame_careful : Careful shapeEnv shapeOwn (.cls 3) := by
  intro ts h
  rcases frame_within h with h | h | h | h | h | h <;> cases h

example : deserializeThrowD shapeEnv shapeOwn (.cls 3) frameDoc 0 = .returned frameVal ∧
    deserializeBoolD shapeEnv shapeOwn (.cls 3) frameDoc (shapeEnv.fresh (.cls 3)) 0 = some (true, frameVal) := by
  have h : deserializeThrow shapeEnv (.cls 3) frameDoc 0 = .returned frameVal := rfl
  have hk : NoKeys [lit "$ref"] frameDoc := by simp [frameDoc, NoKeys, NoKeysAll, NoKeysFields]; decide
  exact ⟨(C75_throw_partial _ _ _ frame_careful _ hk 0).trans h, C75_bool_partial _ _ _ frame_careful _ hk 0 _ h⟩

/-- **C75 is violated** (boolean reader): `{"name": "c"}` and `{"name": "c", "radius": "wide"}` are accepted as circles, the radius keeps its value; a class with
the two members would reject them. -/
theorem C75_missing_accepted : ∃ (env : Env) (own : Nat → Nat) (c : Nat) (missing wrong : Json) (target : Val),
    (∃ v, deserializeBoolD env own (.cls c) missing target 0 = some (true, v)) ∧ (∃ v, deserializeBool env (.cls c) missing target 0 = some (false, v)) ∧
    (∃ v, deserializeBoolD env own (.cls c) wrong target 0 = some (true, v)) ∧ (∃ v, deserializeBool env (.cls c) wrong target 0 = some (false, v)) :=
  ⟨shapeEnv, shapeOwn, 1, .obj [(lit "name", .str (lit "c"))], .obj [(lit "name", .str (lit "c")), (lit "radius", .str (lit "wide"))],
    .obj [.prim (.str []), .prim (.flt (.zero false))], ⟨_, rfl⟩, ⟨_, rfl⟩, ⟨_, rfl⟩, ⟨_, rfl⟩⟩

/-- The members of the base class are checked. -/
example : (∃ v, deserializeBoolD shapeEnv shapeOwn (.cls 1) (.obj [(lit "radius", .num (.int 2))]) (.obj [.prim (.str []), .prim (.flt (.zero false))]) 0 = some (false, v)) ∧
    deserializeThrowD shapeEnv shapeOwn (.cls 1) (.obj [(lit "name", .str (lit "c"))]) 0 = deserializeThrow shapeEnv (.cls 1) (.obj [(lit "name", .str (lit "c"))]) 0 :=
  ⟨⟨_, rfl⟩, rfl⟩

/-- **C75 is violated** (both readers): a `std::variant<Circle, Label>` with a label is written, and read back as a circle. -/
theorem C75_wrong_alternative : ∃ (env : Env) (own : Nat → Nat) (ts : List Ty) (v : Val) (root : Json),
    serializeToDocument env (.variant ts) (.alt 1 v) = some (some root) ∧ writeToStringD env own (.variant ts) (.alt 1 v) [] = some (true, events root) ∧
    deserializeThrow env (.variant ts) root 0 = .returned (.alt 1 v) ∧ (∃ w, deserializeThrowD env own (.variant ts) root 0 = .returned (.alt 0 w)) ∧
    ∃ w, deserializeBoolD env own (.variant ts) root (.alt 1 v) 0 = some (true, .alt 0 w) :=
  ⟨shapeEnv, shapeOwn, [.cls 1, .cls 2], .obj [.prim (.str (lit "l")), .prim (.str (lit "t"))], .obj [(lit "name", .str (lit "l")), (lit "text", .str (lit "t"))],
    rfl, rfl, rfl, ⟨_, rfl⟩, ⟨_, rfl⟩⟩

/-! ## Writing -/

/-- **C75.** A class with all the members is written exactly if the derived class is written and the text is that of a document; the texts are the same. -/
theorem C75_write_exact (env : Env) (own : Nat → Nat) (t : Ty) (v : Val) (before es : List Event) :
    writeToString env t v before = some (true, es) ↔ writeToStringD env own t v before = some (true, es) ∧ ∃ j, es = events j := by
  have h := wrD_rel env own v t [] []
  rw [writeToString, writeToStringD]
  revert h
  generalize wrD env own v t [] [] = x'
  generalize wr env v t [] [] = x
  intro h
  cases h with
  | same σ es' hg =>
    simp only [Option.some.injEq, Prod.mk.injEq, true_and]
    constructor
    · rintro rfl; exact ⟨rfl, hg⟩
    · exact fun h => h.1
  | broken σ es' x hb hf =>
    have hx : (match (generalizing := false) x with | .ub => none | .done _ true es => some (true, es) | .done _ false _ => some (false, before)) ≠ some (true, es) := by
      cases x with
      | ub => exact nofun
      | done σ' ok es'' => cases ok with
        | false => simp
        | true => exact absurd rfl (hf _ _)
    refine iff_of_false hx ?_
    simp only [Option.some.injEq, Prod.mk.injEq, true_and]
    rintro ⟨rfl, j, rfl⟩
    exact hb.1 j [] [] rfl
  | torn σ es' x hb hf =>
    have hx : (match (generalizing := false) x with | .ub => none | .done _ true es => some (true, es) | .done _ false _ => some (false, before)) ≠ some (true, es) := by
      cases x with
      | ub => exact nofun
      | done σ' ok es'' => cases ok with
        | false => simp
        | true => exact absurd rfl (hf _ _)
    exact iff_of_false hx (by simp)
  | ub x hf =>
    have hx : (match (generalizing := false) x with | .ub => none | .done _ true es => some (true, es) | .done _ false _ => some (false, before)) ≠ some (true, es) := by
      cases x with
      | ub => exact nofun
      | done σ' ok es'' => cases ok with
        | false => simp
        | true => exact absurd rfl (hf _ _)
    exact iff_of_false hx (by simp)

/-- The frame is written by both. -/
example : writeToString shapeEnv (.cls 3) frameVal [] = some (true, events (.obj [(lit "outer", .obj [(lit "name", .str (lit "c")), (lit "radius", .num (.dbl (.fin false 0 1)))]),
    (lit "labels", .arr [.obj [(lit "name", .str (lit "l")), (lit "text", .str (lit "t"))]])])) := rfl

/-- **C75 is violated** (writer): a circle with an infinite radius is written with success as `{"name":"c","radius":}`, which is no JSON text; a class with the
two members would report the failure. -/
theorem C75_broken_text : ∃ (env : Env) (own : Nat → Nat) (c : Nat) (v : Val) (es : List Event),
    writeToStringD env own (.cls c) v [] = some (true, es) ∧ (¬ ∃ j, es = events j) ∧ writeToString env (.cls c) v [] = some (false, []) := by
  refine ⟨shapeEnv, shapeOwn, 1, .obj [.prim (.str (lit "c")), .prim (.flt (.inf false))],
    [.startObj, .key (lit "name"), .str (lit "c"), .key (lit "radius"), .endObj], rfl, fun h => ?_, rfl⟩
  have := (C75_write_exact shapeEnv shapeOwn (.cls 1) (.obj [.prim (.str (lit "c")), .prim (.flt (.inf false))]) [] _).2 ⟨rfl, h⟩
  exact absurd this (by
    rw [show writeToString shapeEnv (.cls 1) (.obj [.prim (.str (lit "c")), .prim (.flt (.inf false))]) [] = some (false, []) from rfl]
    simp)

end Verif.Props
