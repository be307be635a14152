import Verif.SchemaValid
import Verif.Demo
import Verif.Props.Write

/-!
# Properties of schema generation (C51 to C54, C62)

`NamesDiffer`: `typeid(T).name()` differs for different classes. `PlainName`: these names contain no `/` and no `~`.
-/

namespace Verif.Demo
open Verif.Core Verif.Numeric Verif.EnumConv JsonSchema

/-- class 0 is `Point`; class 1 has a member of each kind of type that the schema describes exactly; the others are empty. -/
def shape : Class := ⟨lit "Shape", [⟨lit "corners", .required, .vec (.cls 0)⟩, ⟨lit "origin", .required, .cls 0⟩, ⟨lit "label", .optional, tStr⟩,
  ⟨lit "tags", .required, .set tStr⟩, ⟨lit "choice", .required, .variant [tInt, tStr, .vec tInt]⟩, ⟨lit "scores", .required, .map false tInt⟩,
  ⟨lit "pair", .required, .tuple [tInt, .prim .null]⟩, ⟨lit "box", .required, .arr 2 (.prim .bool)⟩, ⟨lit "data", .required, .prim .bytes⟩,
  ⟨lit "when", .required, .prim .time⟩, ⟨lit "middle", .required, .sptr (.cls 0)⟩, ⟨lit "other", .optional, .uptr (.cls 0)⟩]⟩

/-- The program with these classes. -/
def schemaEnv : Env := { Demo.env with classes := fun n => match n with | 0 => point | 1 => shape | _ => ⟨lit "Empty", []⟩ }

/-- A heap with one point. -/
def schemaHeap : Heap := fun a => match a with | 7 => some (.cls 0, goodPoint) | _ => none

/-- A shape. -/
def shapeVal : Val := .obj [.seq [goodPoint, goodPoint], goodPoint, .absent, .set [.prim (.str (lit "a")), .prim (.str (lit "b"))],
  .alt 1 (.prim (.str (lit "x"))), .map [(lit "k", .prim (.int 3)), (lit "l", .prim (.int (-4)))], .tup [.prim (.int 5), .prim .null],
  .tup [.prim (.bool true), .prim (.bool false)], .prim (.bytes [1, 2, 3]), .prim (.time 0), .sptr 7 goodPoint, .present (.uptr goodPoint)]

theorem ty_goodPoint' : HasTy schemaEnv schemaHeap goodPoint (.cls 0) := by
  simp only [goodPoint, HasTy, schemaEnv, Env.members, point, MembersTy, PrimTy]
  exact ⟨by decide, by decide, trivial⟩

theorem ty_shape : HasTy schemaEnv schemaHeap shapeVal (.cls 1) := by
  have h := ty_goodPoint'
  have hm : schemaEnv.members 1 = shape.members := rfl
  simp only [shapeVal, HasTy, hm, shape, MembersTy, AllTy, ValsTy, HasTys, PrimTy]
  refine ⟨⟨h, h, trivial⟩, h, trivial, ⟨⟨trivial, trivial, trivial⟩, by decide⟩, ⟨_, rfl, trivial⟩, ⟨⟨by decide, by decide, trivial⟩, by unfold Ascending; decide +kernel⟩, ⟨by decide, trivial, trivial⟩,
    ⟨rfl, trivial, trivial, trivial⟩, trivial, by decide, ⟨rfl, h⟩, h, trivial⟩

theorem schema_names : schemaEnv.NamesDiffer := by
  intro c c' h
  match c, c' with
  | 0, 0 => rfl
  | 0, 1 => exact absurd h (by decide)
  | 0, _ + 2 => exact absurd (show lit "Point" = lit "Empty" from h) (by decide)
  | 1, 0 => exact absurd h (by decide)
  | 1, 1 => rfl
  | 1, _ + 2 => exact absurd (show lit "Shape" = lit "Empty" from h) (by decide)
  | _ + 2, 0 => exact absurd (show lit "Empty" = lit "Point" from h) (by decide)
  | _ + 2, 1 => exact absurd (show lit "Empty" = lit "Shape" from h) (by decide)
  | _ + 2, _ + 2 => rfl

theorem schema_plain : ∀ c, PlainName (className schemaEnv c) := by
  intro c
  match c with
  | 0 => exact ⟨by decide, by decide⟩
  | 1 => exact ⟨by decide, by decide⟩
  | _ + 2 => exact show PlainName (lit "Empty") from ⟨by decide, by decide⟩

theorem schema_fair : schemaEnv.Fair := fun _ _ _ => List.reverse_perm _

theorem schema_classes : DescribableClasses schemaEnv (fun _ => True) := by
  intro c _
  match c with
  | 0 => exact ⟨by simp [schemaEnv, Env.members, point, Describable], by decide⟩
  | 1 =>
    refine ⟨?_, by decide⟩
    have hm : schemaEnv.members 1 = shape.members := rfl
    simp [hm, shape, Describable, DescribableAll, Prim.separate, Ty.kinds, Prim.kinds]
  | _ + 2 => exact ⟨by simp [schemaEnv, Env.members], by simp [schemaEnv, Env.members]⟩

theorem schema_less : ∀ v, schemaEnv.less v v = false := by
  intro v
  show less v v = false
  unfold less
  split <;> simp_all [strLess_irrefl]

end Verif.Demo

namespace Verif.Props
open Verif.Core Verif.Numeric Verif.EnumConv JsonSchema Verif.Demo

/-! ## C51 -/

/-- **C51 (partial).** The document written for a value is valid against the schema generated for its type, for
types without enumerations, dictionaries, sets of anything but null, booleans, integers, strings and bytes, and
variants whose alternatives are written as the same kind of JSON value (`Describable`), when no shared object is
reached twice and all numbers are finite. Missing: those types and values, see the negations below. -/
theorem C51_written_valid_partial (env : Env) (hfair : env.Fair) (H : Heap) (G : Nat → Prop) (hG : DescribableClasses env G)
    (hless : ∀ v, env.less v v = false) (hn : env.NamesDiffer) (hp : ∀ c, PlainName (className env c)) (version : Option Str) (fuel : Nat) (t : Ty)
    (hk : Describable G t) (s : Schema) (D : Defs) (hb : buildSchema env fuel t = some (s, D)) (v : Val) (ht : HasTy env H v t) (hf : finite v = true)
    (hu : (addrs v).Nodup) (before : List Event) :
    ∃ j, writeToString env t v before = some (true, events j) ∧ ValidAgainst (schemaDoc version D s) j := by
  obtain ⟨-, hd⟩ := buildSchema_desc env hn fuel t s D hb
  obtain ⟨n, j, tr, h1, h2, h3⟩ := serOk env hfair H v t [] [] [] ht hf
  have hr : NoRefs tr := noRefs_of_nodup h2 h3.good hu
  refine ⟨j, ?_, verdict_doc version D s j true (sound H G hG hless hp version s hd v j hk ⟨ht, _, _, h2, hr⟩)⟩
  obtain ⟨es, h4, -⟩ := C29_write_succeeds_iff_finite env hfair H t v ht before
  rw [hf] at h4
  obtain ⟨j', h5, h6⟩ := C28_same_text_partial env t v before es h4
  have h7 : serializeToDocument env t v = some (some j) := by simp [serializeToDocument, h1]
  rw [h7] at h5
  simp only [Option.some.injEq] at h5
  subst h5
  rw [h4, h6]

/-- The schema of `Shape` and its definitions. -/
theorem shape_schema : ∃ s D, buildSchema schemaEnv 4 (.cls 1) = some (s, D) ∧ D.map (·.1) = [lit "Point"] := ⟨_, _, rfl, rfl⟩

example : ∃ s D j, buildSchema schemaEnv 4 (.cls 1) = some (s, D) ∧ writeToString schemaEnv (.cls 1) shapeVal [] = some (true, events j) ∧
    ValidAgainst (schemaDoc (some (lit "https://json-schema.org/draft/2020-12/schema")) D s) j := by
  obtain ⟨s, D, h, -⟩ := shape_schema
  obtain ⟨j, h1, h2⟩ := C51_written_valid_partial schemaEnv schema_fair schemaHeap _ schema_classes schema_less schema_names schema_plain
    (some (lit "https://json-schema.org/draft/2020-12/schema")) 4 (.cls 1) (by simp [Describable]) s D h shapeVal ty_shape rfl (by decide) []
  exact ⟨s, D, j, h, h1, h2⟩

/-- The schema is not trivial: another document is rejected. -/
example : ∃ s D, buildSchema schemaEnv 4 (.cls 0) = some (s, D) ∧ InvalidAgainst (schemaDoc none D s) (.obj [(lit "x", .num (.int 1))]) := by
  refine ⟨_, _, rfl, .step 3 fun fuel hf => ?_⟩
  obtain ⟨n, rfl⟩ : ∃ n, fuel = n + 3 := ⟨fuel - 3, by omega⟩
  rfl

/-- A verdict that is reached with `n` nested schemas. -/
theorem verdict_of (root schema doc : Json) (b : Bool) (n : Nat) (h : ∀ m, validate root (m + n) schema doc = some b) : Verdict root schema doc b :=
  ⟨n, fun fuel hf => by obtain ⟨m, rfl⟩ : ∃ m, fuel = m + n := ⟨fuel - n, by omega⟩; exact h m⟩

/-- **C51 is false for variants**: an integer is accepted by two alternatives of `std::variant<int, double>`. -/
theorem C51_variant_overlap : ∃ s D v j, buildSchema Demo.env 9 (.variant [tInt, tDbl]) = some (s, D) ∧ HasTy Demo.env Demo.heap v (.variant [tInt, tDbl]) ∧
    writeToString Demo.env (.variant [tInt, tDbl]) v [] = some (true, events j) ∧ InvalidAgainst (schemaDoc none D s) j := by
  refine ⟨_, _, .alt 0 (.prim (.int 5)), .num (.int 5), rfl, ⟨tInt, rfl, ?_⟩, rfl, verdict_of _ _ _ _ 2 fun m => rfl⟩
  simp only [HasTy, PrimTy]
  decide

/-- **C51 is false for shared objects**: the second occurrence is written as a reference, which the schema of the
class rejects. -/
theorem C51_shared : ∃ s D v j, buildSchema Demo.env 9 (.vec (.sptr (.cls 0))) = some (s, D) ∧
    HasTy Demo.env (fun _ => some (.cls 0, goodPoint)) v (.vec (.sptr (.cls 0))) ∧
    writeToString Demo.env (.vec (.sptr (.cls 0))) v [] = some (true, events j) ∧ InvalidAgainst (schemaDoc none D s) j := by
  refine ⟨_, _, .seq [.sptr 7 goodPoint, .sptr 7 goodPoint], .arr [(.obj [(lit "x", .num (.dbl (.fin false 1 0))), (lit "y", .num (.dbl (.fin false 3 0)))]), .obj [(lit "$ref", .str (lit "/0"))]], rfl, ?_, rfl, verdict_of _ _ _ _ 4 fun m => rfl⟩
  have h : HasTy Demo.env (fun _ => some (.cls 0, goodPoint)) goodPoint (.cls 0) := by
    simp only [goodPoint, HasTy, Demo.env, Env.members, point, MembersTy, PrimTy]
    exact ⟨by decide, by decide, trivial⟩
  simp only [HasTy, AllTy]
  exact ⟨⟨trivial, h⟩, ⟨trivial, h⟩, trivial⟩

/-- **C51 is false for dictionaries**: they are written as objects, but the schema is that of an array of pairs. -/
theorem C51_dict : ∃ s D v j, buildSchema Demo.env 9 (.dict tInt) = some (s, D) ∧ HasTy Demo.env Demo.heap v (.dict tInt) ∧
    writeToString Demo.env (.dict tInt) v [] = some (true, events j) ∧ InvalidAgainst (schemaDoc none D s) j := by
  refine ⟨_, _, .dict [(lit "a", .prim (.int 5))], .obj [(lit "a", .num (.int 5))], rfl, ?_, rfl, verdict_of _ _ _ _ 2 fun m => rfl⟩
  simp only [HasTy, ValsTy, PrimTy]
  exact ⟨by decide, trivial⟩

/-- **C51 is false for sets of pointers**: different objects with the same content are written as equal elements. -/
theorem C51_set : ∃ s D v j, buildSchema Demo.env 9 (.set (.sptr (.cls 0))) = some (s, D) ∧
    HasTy Demo.env (fun _ => some (.cls 0, goodPoint)) v (.set (.sptr (.cls 0))) ∧
    writeToString Demo.env (.set (.sptr (.cls 0))) v [] = some (true, events j) ∧ InvalidAgainst (schemaDoc none D s) j := by
  refine ⟨_, _, .set [.sptr 7 goodPoint, .sptr 8 goodPoint], .arr [(.obj [(lit "x", .num (.dbl (.fin false 1 0))), (lit "y", .num (.dbl (.fin false 3 0)))]), (.obj [(lit "x", .num (.dbl (.fin false 1 0))), (lit "y", .num (.dbl (.fin false 3 0)))])], rfl, ?_, rfl, verdict_of _ _ _ _ 4 fun m => rfl⟩
  have h : HasTy Demo.env (fun _ => some (.cls 0, goodPoint)) goodPoint (.cls 0) := by
    simp only [goodPoint, HasTy, Demo.env, Env.members, point, MembersTy, PrimTy]
    exact ⟨by decide, by decide, trivial⟩
  simp only [HasTy, AllTy]
  exact ⟨⟨⟨trivial, h⟩, ⟨trivial, h⟩, trivial⟩, by simp [Demo.env, less]⟩

/-! ## C52 -/

/-- The members of a JSON schema for a class with the given member variables. -/
structure ListsMembers (ms : List Member) (kw : List (Str × Json)) : Prop where
  type : kw.lookup (lit "type") = some (.str (lit "object"))
  properties : ∃ ps, kw.lookup (lit "properties") = some (.obj ps) ∧ ps.map (·.1) = ms.map (·.name)
  required : kw.lookup (lit "required") = some (.arr (((ms.filter fun m => m.kind ≠ .optional).map (·.name)).map .str))
  nothingElse : kw.lookup (lit "additionalProperties") = some (.bool false)

theorem entries_names (ps : List (Str × Schema)) : (Schema.entries ps).map (·.1) = ps.map (·.1) := by
  induction ps with
  | nil => rfl
  | cons p ps ih => obtain ⟨k, s⟩ := p; simp [Schema.entries, ih]

theorem object_lists (ms : List Member) (ps : List (Str × Schema)) (h : ps.map (·.1) = ms.map (·.name)) :
    ListsMembers ms (Schema.object ps ((ms.filter fun m => m.kind ≠ .optional).map (·.name))).fields where
  type := rfl
  properties := ⟨Schema.entries ps, rfl, by rw [entries_names, h]⟩
  required := rfl
  nothingElse := rfl

/-- **C52.** The schema generated for a class has a property for each member variable, in order, requires exactly
those that are not optional, and forbids others. -/
theorem C52_members (env : Env) (version : Option Str) (fuel : Nat) (c : Nat) (s : Schema) (D : Defs)
    (hb : buildSchema env fuel (.cls c) = some (s, D)) : ∃ kw, schemaDoc version D s = .obj kw ∧ ListsMembers (env.members c) kw := by
  cases fuel with
  | zero => cases hb
  | succ fuel =>
    simp only [buildSchema, gen, Option.map_eq_some_iff] at hb
    obtain ⟨⟨⟨ps, rs⟩, D'⟩, h1, h2⟩ := hb
    have h3 : ∀ (ms : List Member) (d : Defs) (r : (List (Str × Schema) × List Str) × Defs), visitWith (makeWith env (gen env fuel)) ms d = some r →
        r.1.1.map (·.1) = ms.map (·.name) ∧ r.1.2 = (ms.filter fun m => m.kind ≠ .optional).map (·.name) := by
      intro ms
      induction ms with
      | nil => intro d r h; cases h; exact ⟨rfl, rfl⟩
      | cons m ms ih =>
        intro d r h
        simp only [visitWith, Option.bind_eq_some_iff, Option.map_eq_some_iff] at h
        obtain ⟨a, -, b, h5, rfl⟩ := h
        obtain ⟨e1, e2⟩ := ih _ _ h5
        refine ⟨by simp [e1], ?_⟩
        by_cases hk : m.kind = .optional
        · simp [hk, e2]
        · simp [hk, e2]
    obtain ⟨e1, e2⟩ := h3 _ _ _ h1
    simp only at e1 e2
    simp only [Prod.mk.injEq] at h2
    obtain ⟨rfl, rfl⟩ := h2
    obtain ⟨kw, h4, h5⟩ := doc_keywords version D' (.object ps rs)
    refine ⟨kw, h4, ?_⟩
    have := object_lists (env.members c) ps e1
    rw [← e2] at this
    obtain ⟨g1, ⟨ps', g2, g3⟩, g4, g5⟩ := this
    exact ⟨by rw [h5 _ (by simp [keywords])]; exact g1, ⟨ps', by rw [h5 _ (by simp [keywords])]; exact g2, g3⟩,
      by rw [h5 _ (by simp [keywords]), g4], by rw [h5 _ (by simp [keywords])]; exact g5⟩

example : ∃ s D kw, buildSchema schemaEnv 4 (.cls 1) = some (s, D) ∧ schemaDoc none D s = .obj kw ∧ ListsMembers shape.members kw := by
  obtain ⟨s, D, h, -⟩ := shape_schema
  obtain ⟨kw, h1, h2⟩ := C52_members schemaEnv none 4 1 s D h
  exact ⟨s, D, kw, h, h1, h2⟩

/-- **C52, the classes in `definitions`.** The same holds for every entry of `definitions`. -/
theorem C52_definitions (env : Env) (hn : env.NamesDiffer) (fuel : Nat) (t : Ty) (s : Schema) (D : Defs) (hb : buildSchema env fuel t = some (s, D))
    (name : Str) (s' : Schema) (h : (name, s') ∈ D) : ∃ c kw, className env c = name ∧ s'.json = .obj kw ∧ ListsMembers (env.members c) kw := by
  obtain ⟨c, h1, h2, ps, rs, h3⟩ := (buildSchema_desc env hn fuel t s D hb).1 _ h
  simp only at h1 h2 h3
  subst h3
  cases h2 with
  | cls _ _ h4 _ => exact ⟨c, _, h1, rfl, object_lists _ _ h4⟩

example : ∃ s D s', buildSchema schemaEnv 4 (.cls 1) = some (s, D) ∧ (lit "Point", s') ∈ D ∧
    ∃ c kw, className schemaEnv c = lit "Point" ∧ s'.json = .obj kw ∧ ListsMembers (schemaEnv.members c) kw := by
  obtain ⟨s, D, h, hD⟩ := shape_schema
  match D, hD with
  | [(k, s')], hD =>
    simp only [List.map_cons, List.map_nil, List.cons.injEq, and_true] at hD
    subst hD
    exact ⟨s, _, s', h, by simp, C52_definitions schemaEnv schema_names 4 (.cls 1) s _ h (lit "Point") s' (by simp)⟩

/-- **C52, what this means for documents.** A valid document is an object, has no members but those of the class, and
has all those that are not optional. -/
theorem C52_valid (env : Env) (version : Option Str) (fuel : Nat) (c : Nat) (s : Schema) (D : Defs)
    (hb : buildSchema env fuel (.cls c) = some (s, D)) (doc : Json) (hv : ValidAgainst (schemaDoc version D s) doc) :
    ∃ ms, doc = .obj ms ∧ (∀ q ∈ ms, ∃ m ∈ env.members c, m.name = q.1) ∧ ∀ m ∈ env.members c, m.kind ≠ .optional → m.name ∈ ms.map (·.1) := by
  obtain ⟨kw, h1, h2⟩ := C52_members env version fuel c s D hb
  obtain ⟨n, hv⟩ := hv
  have h3 := hv (n + 2) (by omega)
  generalize schemaDoc version D s = root at *
  subst h1
  rw [validate_true] at h3
  obtain ⟨-, g1, -, -, -, -, -, -, -, -, -, g2, g3, -⟩ := h3
  obtain ⟨f1, ⟨ps, f2, f2'⟩, f3, f4⟩ := h2
  rw [checkType, f1] at g1
  simp only [Option.some.injEq] at g1
  have hk := kind_object doc g1
  cases doc <;> first | cases hk | skip
  rename_i ms
  refine ⟨ms, rfl, ?_, ?_⟩
  · intro q hq
    simp only [checkAdditional, f4, propertiesOf, f2] at g2
    have := (all3_true _).1 g2 _ (List.mem_map.2 ⟨q, hq, rfl⟩)
    cases hl : ps.lookup q.1 with
    | none => simp [hl, validate] at this
    | some x =>
      have : q.1 ∈ ps.map (·.1) := List.mem_map.2 ⟨_, lookup_self_mem hl, rfl⟩
      rw [f2'] at this
      obtain ⟨m, hm, he⟩ := List.mem_map.1 this
      exact ⟨m, hm, he⟩
  · intro m hm hk
    simp only [checkRequired, f3, Option.some.injEq, List.all_eq_true] at g3
    have := g3 (.str m.name) (List.mem_map.2 ⟨m.name, List.mem_map.2 ⟨m, by simp [hm, hk], rfl⟩, rfl⟩)
    simp only at this
    cases hl : ms.lookup m.name with
    | none => simp [hl] at this
    | some x => exact List.mem_map.2 ⟨_, lookup_self_mem hl, rfl⟩

example : ∃ s D doc, buildSchema schemaEnv 4 (.cls 0) = some (s, D) ∧ ValidAgainst (schemaDoc none D s) doc ∧
    ∃ ms, doc = .obj ms ∧ (∀ q ∈ ms, ∃ m ∈ point.members, m.name = q.1) ∧ ∀ m ∈ point.members, m.kind ≠ .optional → m.name ∈ ms.map (·.1) := by
  have hv : ∀ s D, buildSchema schemaEnv 4 (.cls 0) = some (s, D) →
      ValidAgainst (schemaDoc none D s) (.obj [(lit "y", .num (.int 2)), (lit "x", .num (.int 1))]) := by
    intro s D h
    cases h
    exact verdict_of _ _ _ _ 3 fun m => rfl
  exact ⟨_, _, _, rfl, hv _ _ rfl, C52_valid schemaEnv none 4 0 _ _ rfl _ (hv _ _ rfl)⟩

/-! ## C53 -/

/-- **C53.** Every reference in a generated schema document leads to an entry of `definitions`. -/
theorem C53_closed (env : Env) (hn : env.NamesDiffer) (hp : ∀ c, PlainName (className env c)) (version : Option Str) (fuel : Nat) (t : Ty) (s : Schema) (D : Defs)
    (hb : buildSchema env fuel t = some (s, D)) (kw : List (Str × Json)) (hs : Sub (.obj kw) (schemaDoc version D s)) (r : Str)
    (hr : kw.lookup (lit "$ref") = some (.str r)) :
    ∃ root defs name target, schemaDoc version D s = .obj root ∧ root.lookup (lit "definitions") = some (.obj defs) ∧ (name, target) ∈ defs ∧
      r = lit "#/definitions/" ++ name ∧ resolve (schemaDoc version D s) r = some target := by
  obtain ⟨hg, hd⟩ := buildSchema_desc env hn fuel t s D hb
  have key : ∃ name s', r = defRef name ∧ D.lookup name = some s' := by
    have hrefs : Refs D s.json := hd.refs
    have hdefs : Refs D (.obj (Schema.entries D)) := .entries fun q hq => by
      obtain ⟨c, -, h, -⟩ := hg q hq
      exact h.refs
    have hmem : ∀ k x, (k, x) ∈ s.fields → Refs D x := fun k x hx kw r hs hr => hrefs kw r (.member _ k x hx hs) hr
    cases hs with
    | self =>
      refine hrefs s.fields r .self ?_
      obtain ⟨kw', h1, h2⟩ := doc_keywords version D s
      cases h1
      rw [← h2 _ (by simp [keywords])]
      exact hr
    | member _ k x hx h =>
      rcases List.mem_append.1 hx with hx | hx
      · rcases List.mem_append.1 hx with hx | hx
        · cases version with
          | none => simp [optField] at hx
          | some u =>
            simp [optField] at hx
            obtain ⟨rfl, rfl⟩ := hx
            cases h
        · split at hx
          · simp [optField] at hx
          · simp [optField] at hx
            obtain ⟨rfl, rfl⟩ := hx
            exact hdefs kw r h hr
      · exact hmem k x hx kw r h hr
  obtain ⟨name, s', rfl, hl⟩ := key
  have hD : D ≠ [] := by rintro rfl; cases hl
  obtain ⟨root, h1, h2⟩ := doc_lookup_definitions version D s hD
  obtain ⟨c, rfl, -⟩ := hg.lookup name s' hl
  refine ⟨root, _, className env c, s'.json, h1, h2, ?_, rfl, Desc.resolve version s hp hl⟩
  apply lookup_self_mem
  rw [entries_lookup, hl]
  rfl

example : ∃ s D, buildSchema schemaEnv 4 (.vec (.cls 0)) = some (s, D) ∧
    Sub (.obj [(lit "$ref", .str (lit "#/definitions/Point"))]) (schemaDoc none D s) ∧
    ∃ target, resolve (schemaDoc none D s) (lit "#/definitions/Point") = some target := by
  refine ⟨_, _, rfl, .member _ (lit "items") _ (.tail _ (.tail _ (.head _))) .self, ?_⟩
  obtain ⟨root, defs, name, target, -, -, -, -, h⟩ := C53_closed schemaEnv schema_names schema_plain none 4 (.vec (.cls 0)) _ _ rfl
    [(lit "$ref", .str (lit "#/definitions/Point"))] (.member _ (lit "items") _ (.tail _ (.tail _ (.head _))) .self) (lit "#/definitions/Point") rfl
  exact ⟨target, h⟩

/-! ## C54 -/

/-- **C54 is false**: the list of values in the schema of an enumeration is always empty, so that no document is
valid against it, whatever the enumeration. -/
theorem C54_enum_rejects (env : Env) (version : Option Str) (fuel : Nat) (p : Prim) (hp : (∃ t, p = .enumInt t) ∨ ∃ table, p = .enumStr table) (s : Schema) (D : Defs)
    (hb : buildSchema env fuel (.prim p) = some (s, D)) (doc : Json) : InvalidAgainst (schemaDoc version D s) doc := by
  apply verdict_doc
  refine .step 0 fun n _ => ?_
  cases fuel with
  | zero => cases hb
  | succ fuel =>
    cases hb
    rcases hp with ⟨t, rfl⟩ | ⟨t, rfl⟩
    · rw [Schema.json, primSchema, Schema.fields, validate]
      apply all3_false
      have : checkEnum [(lit "type", .str (lit "object")), (lit "enum", .arr [])] doc = some false := rfl
      simp [this]
    · rw [Schema.json, primSchema, Schema.fields, validate]
      apply all3_false
      have : checkEnum [(lit "type", .str (lit "string")), (lit "enum", .arr [])] doc = some false := rfl
      simp [this]

example : ∃ s D j, buildSchema Demo.env 1 tColor = some (s, D) ∧ writeToString Demo.env tColor (.prim (.int 1)) [] = some (true, events j) ∧
    InvalidAgainst (schemaDoc none D s) j :=
  ⟨_, _, .str (lit "green"), rfl, rfl, C54_enum_rejects Demo.env none 1 _ (.inr ⟨_, rfl⟩) _ _ rfl _⟩

/-! ## C62 -/

/-- **C62 (partial).** Generating the schema of a type returns exactly if no class that the type names, directly or in
member variables of such classes, is part of or leads into a cycle. Missing: recursive classes. -/
theorem C62_returns_partial (env : Env) (t : Ty) : (∃ fuel r, buildSchema env fuel t = some r) ↔ ∀ c ∈ t.classes, Acc (Uses env) c :=
  gen_returns_iff env t []

example : ∃ fuel r, buildSchema schemaEnv fuel (.vec (.cls 1)) = some r := by
  refine (C62_returns_partial schemaEnv _).2 fun c hc => ?_
  simp only [Ty.classes, List.mem_singleton] at hc
  subst hc
  have h0 : Acc (Uses schemaEnv) 0 := by
    refine .intro _ fun d hd => ?_
    obtain ⟨m, hm, hd⟩ := hd
    have hm' : m ∈ point.members := hm
    simp only [point, List.mem_cons, List.not_mem_nil, or_false] at hm'
    rcases hm' with rfl | rfl <;> simp [Ty.classes] at hd
  refine .intro _ fun d hd => ?_
  obtain ⟨m, hm, hd⟩ := hd
  have hm' : m ∈ shape.members := hm
  simp only [shape, List.mem_cons, List.not_mem_nil, or_false] at hm'
  rcases hm' with rfl | rfl | rfl | rfl | rfl | rfl | rfl | rfl | rfl | rfl | rfl | rfl <;> simp [Ty.classes, Ty.classesAll] at hd <;> (subst hd; exact h0)

/-- **C62 is false for recursive classes**: if a class is used by one of its own members, generating its schema does
not return. -/
theorem C62_recursive (env : Env) (c : Nat) (h : Relation.TransGen (Uses env) c c) (fuel : Nat) : buildSchema env fuel (.cls c) = none := by
  cases hb : buildSchema env fuel (.cls c) with
  | none => rfl
  | some r =>
    have h1 := (C62_returns_partial env (.cls c)).1 ⟨fuel, r, hb⟩ c (by simp [Ty.classes])
    have h2 : ∀ x, Acc (Relation.TransGen (Uses env)) x → ¬ Relation.TransGen (Uses env) x x := by
      intro x hx
      induction hx with
      | intro x _ ih => exact fun hc => ih x hc hc
    exact absurd h (h2 c (Acc.transGen h1))

example (fuel : Nat) : buildSchema Demo.env fuel (.cls 4) = none :=
  C62_recursive Demo.env 4 (.single ⟨⟨lit "children", .required, .vec (.cls 4)⟩, by simp [Env.members, Demo.env, tree], by simp [Ty.classes]⟩) fuel

end Verif.Props
