import Verif.SchemaWrite
import Verif.Props.Schema
import Verif.Props.Text
import Verif.Props.Derived

/-!
# C76: `schema_to_string` writes the schema
-/

namespace Verif.Props
open Verif.Core Verif.Numeric Verif.EnumConv Verif.Demo Verif.Text JsonSchema

/-- **C76.** When a schema is made for a type, it is written with success, as the text of the schema document; `serialize_to_document` makes the same
document. The members of the schema itself are written by a copy of the archive (`JsonSchemaDocument`), see C75; none of them can fail. -/
theorem C76_written (env : Env) (version : Option Str) (fuel : Nat) (t : Ty) (s : Schema) (D : Defs) (h : buildSchema env fuel t = some (s, D)) (before : List Event) :
    schemaToString env version fuel t before = some (true, events (schemaDoc version D s)) ∧
    serializeToDocument (schemaProgram env) (.cls (8 + s.kind)) (documentVal version D s) = some (some (schemaDoc version D s)) := by
  have hw := document_written env version D s before
  constructor
  · rw [schemaToString, h]
    exact ((C75_write_exact (schemaProgram env) schemaOwn _ _ before _).1 hw).1
  · obtain ⟨j, h1, h2⟩ := C28_same_text_partial _ _ _ _ _ hw
    rw [h1, events_inj _ _ h2]

/-- **C76.** The text is, by the grammar of RFC 8259, a JSON text of the schema document and of no other document. -/
theorem C76_text (C : NumConv) (env : Env) (version : Option Str) (fuel : Nat) (t : Ty) (hs : Sized env t) (s : Schema) (D : Defs)
    (h : buildSchema env fuel t = some (s, D)) (before : List Event) :
    ∃ es, schemaToString env version fuel t before = some (true, es) ∧ ∀ j, Denotes C j (writerText C es []) ↔ j = schemaDoc version D s := by
  refine ⟨_, (C76_written env version fuel t s D h before).1, fun j => ?_⟩
  obtain ⟨h1, h2⟩ := schemaDoc_proper env version fuel t hs s D h
  have hd := denotes_render C _ h1 (by rw [h2]; simp)
  rw [show writerText C (events (schemaDoc version D s)) [] = documentToString C (schemaDoc version D s) from rfl, documentToString_eq]
  exact ⟨fun hj => hj.unique hd, fun hj => hj ▸ hd⟩

/-- **C51.** What is written for values of the type is valid against the schema that is written for the type; no hand-made schema document is left in this
statement.

Missing: the same as in `C51_written_valid_partial`. -/
theorem C51_schema_text_partial (env : Env) (hfair : env.Fair) (H : Heap) (G : Nat → Prop) (hG : DescribableClasses env G) (hless : ∀ v, env.less v v = false)
    (hn : env.NamesDiffer) (hp : ∀ c, PlainName (className env c)) (version : Option Str) (t : Ty) (hk : Describable G t) (hr : ∀ c ∈ t.classes, Acc (Uses env) c) :
    ∃ fuel schema, schemaToString env version fuel t [] = some (true, events schema) ∧
      ∀ v, HasTy env H v t → finite v = true → (addrs v).Nodup → ∀ before, ∃ j, writeToString env t v before = some (true, events j) ∧ ValidAgainst schema j := by
  obtain ⟨fuel, ⟨s, D⟩, h⟩ := (C62_returns_partial env t).2 hr
  exact ⟨fuel, _, (C76_written env version fuel t s D h []).1, fun v ht hf hu before =>
    C51_written_valid_partial env hfair H G hG hless hn hp version fuel t hk s D h v ht hf hu before⟩

/-! ## Examples -/

/-- The schema of `Point`. -/
example : schemaToString schemaEnv none 3 (.vec (.cls 0)) [] = some (true, events (.obj [
    (lit "definitions", .obj [(lit "Point", .obj [(lit "type", .str (lit "object")),
      (lit "properties", .obj [(lit "x", .obj [(lit "type", .str (lit "number"))]), (lit "y", .obj [(lit "type", .str (lit "number"))])]),
      (lit "required", .arr [.str (lit "x"), .str (lit "y")]), (lit "additionalProperties", .bool false)])]),
    (lit "type", .str (lit "array")), (lit "items", .obj [(lit "$ref", .str (lit "#/definitions/Point"))])])) := rfl

/-- All kinds of schemas. -/
example : ∃ s D, buildSchema schemaEnv 9 (.cls 1) = some (s, D) ∧ schemaToString schemaEnv (some (lit "v")) 9 (.cls 1) [] = some (true, events (schemaDoc (some (lit "v")) D s)) := by
  refine ⟨_, _, rfl, (C76_written schemaEnv (some (lit "v")) 9 (.cls 1) _ _ rfl []).1⟩

/-- Sizes. -/
theorem sized_demo : Sized Demo.env (.arr 3 (.tuple [tInt, tStr])) := by
  have h : ∀ t, Within Demo.env (.arr 3 (.tuple [tInt, tStr])) t → t = .arr 3 (.tuple [tInt, tStr]) ∨ t = .tuple [tInt, tStr] ∨ t = tInt ∨ t = tStr := by
    intro t h
    induction h with
    | self => exact .inl rfl
    | inner t1 t2 _ hi ih =>
      rcases ih with rfl | rfl | rfl | rfl
      · cases hi; simp
      · cases hi with
        | tuple _ _ ht =>
          simp only [List.mem_cons, List.not_mem_nil, or_false] at ht
          rcases ht with rfl | rfl <;> simp
      · cases hi
      · cases hi
  intro u hu
  rcases h u hu with rfl | rfl | rfl | rfl
  · exact ⟨fun n u' he => by (cases he; decide), fun us he => by cases he⟩
  · exact ⟨fun n u' he => by (cases he), fun us he => by cases he; decide⟩
  · exact ⟨fun n u' he => by (cases he), fun us he => by cases he⟩
  · exact ⟨fun n u' he => by (cases he), fun us he => by cases he⟩

example : ∃ es, schemaToString Demo.env none 9 (.arr 3 (.tuple [tInt, tStr])) [] = some (true, es) ∧
    ∀ j, Denotes demoConv j (writerText demoConv es []) ↔ j = schemaDoc none [] (.items (.tuple [.signed (-2147483648) 2147483647, .fundamental (lit "string") none none]) false (some 3)) :=
  C76_text demoConv Demo.env none 9 _ sized_demo _ _ rfl []

/-- The hypotheses of `C51_schema_text_partial`. -/
example : ∃ fuel schema, schemaToString schemaEnv none fuel (.cls 1) [] = some (true, events schema) ∧
    ∃ j, writeToString schemaEnv (.cls 1) shapeVal [] = some (true, events j) ∧ ValidAgainst schema j := by
  obtain ⟨fuel, schema, h1, h2⟩ := C51_schema_text_partial schemaEnv schema_fair schemaHeap _ schema_classes schema_less schema_names schema_plain none (.cls 1)
    (by simp [Describable]) ((C62_returns_partial schemaEnv (.cls 1)).1 ⟨9, _, rfl⟩)
  exact ⟨fuel, schema, h1, h2 shapeVal ty_shape rfl (by decide) []⟩

end Verif.Props
