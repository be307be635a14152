import Verif.ReorderSchema
import Verif.Props.SchemaExact

/-!
# C38: validity does not depend on the order of members in the document
-/

namespace Verif.Props
open Verif.Core Verif.Numeric Verif.Demo JsonSchema

/-- **C38, schema.** Permuting the members of the objects of a document, at any depth, does not change whether it is valid against the generated schema: for all types, also
for sets, whose elements are compared. -/
theorem C38_schema (env : Env) (hn : env.NamesDiffer) (hp : ∀ c, PlainName (className env c)) (version : Option Str) (fuel : Nat) (t : Ty) (s : Schema) (D : Defs)
    (hb : buildSchema env fuel t = some (s, D)) (doc doc' : Json) (h : Reorder doc doc') :
    (ValidAgainst (schemaDoc version D s) doc ↔ ValidAgainst (schemaDoc version D s) doc') ∧
    (InvalidAgainst (schemaDoc version D s) doc ↔ InvalidAgainst (schemaDoc version D s) doc') := by
  rw [C112_valid env hn hp version fuel t s D hb, C112_valid env hn hp version fuel t s D hb, C112_invalid env hn hp version fuel t s D hb,
    C112_invalid env hn hp version fuel t s D hb]
  exact ⟨meets_reorder env doc doc' t h, not_congr (meets_reorder env doc doc' t h)⟩

/-- `[{"x": 3, "y": 0.5}]` -/
example : ∃ s D, buildSchema plainEnv 9 (.vec (.cls 0)) = some (s, D) ∧
    ValidAgainst (schemaDoc none D s) (.arr [.obj [(lit "x", .num (.int 3)), (lit "y", .num (.dbl (.fin false 1 (-1))))]]) :=
  ⟨_, _, rfl, (C38_schema plainEnv plain_names plain_plain none 9 (.vec (.cls 0)) _ _ rfl pointsDoc _
    (.arr _ _ (.cons _ _ _ _ (.obj _ _ _ (by decide) (.swap ..) (.cons _ _ _ _ _ (.same _) (.cons _ _ _ _ _ (.same _) .nil))) .nil))).1.1
    (verdict_of _ _ _ _ 5 fun _ => rfl)⟩

/-- A point for the next example. -/
def dotDoc : Json := .obj [(lit "x", .num (.int 1)), (lit "y", .num (.int 2))]

/-- The same point twice in a set, written in two ways. -/
example : ∃ s D, buildSchema plainEnv 9 (.set (.cls 0)) = some (s, D) ∧
    InvalidAgainst (schemaDoc none D s) (.arr [dotDoc, .obj [(lit "y", .num (.int 2)), (lit "x", .num (.int 1))]]) :=
  ⟨_, _, rfl, (C38_schema plainEnv plain_names plain_plain none 9 (.set (.cls 0)) _ _ rfl (.arr [dotDoc, dotDoc]) _
    (.arr _ _ (.cons _ _ _ _ (.same _) (.cons _ _ _ _ (.obj _ _ _ (by decide) (.swap ..) (.cons _ _ _ _ _ (.same _) (.cons _ _ _ _ _ (.same _) .nil))) .nil)))).2.1
    (verdict_of _ _ _ _ 5 fun _ => rfl)⟩

end Verif.Props
