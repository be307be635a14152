import Verif.NumberSchema
import Verif.Props.SameNumber
import Verif.Props.SchemaExact

/-!
# C121: validity does not depend on the way in which numbers are written
-/

namespace Verif.Props
open Verif.Core Verif.Numeric Verif.Numerals Verif.Demo JsonSchema

/-- The number is zero, with or without a sign. -/
def IsZero (n : JsonNum) : Prop := n = .int 0 ∨ ∃ neg, n = .dbl (.zero neg)

theorem same_fraction {m n : JsonNum} (h : SameNumber m n ∨ IsZero m ∧ IsZero n) : SameFraction m n := by
  have key : ∀ (v : Int) (d : Flt), EqInt d v → fraction (.int v) = fraction (.dbl d) := by
    intro v d h
    cases d with
    | zero neg => cases h; rfl
    | fin neg k e =>
      obtain ⟨h1, h2⟩ := h
      have h3 : (-e).toNat = 0 := by omega
      simp only [fraction, h3, h2, Option.some.injEq, Prod.mk.injEq, and_true]
      push_cast
      cases neg
      · simp only [Bool.false_eq_true, if_false, Int.one_mul]
      · simp only [if_true, Int.neg_mul, Int.one_mul]
    | _ => exact absurd h id
  rcases h with h | ⟨h1, h2⟩
  · cases h with
    | same => rfl
    | point v d h => exact key v d h
    | noPoint v d h => exact (key v d h).symm
  · rcases h1 with rfl | ⟨a, rfl⟩ <;> rcases h2 with rfl | ⟨b, rfl⟩ <;> rfl

/-- **C121, schema.** Documents that differ only in the way in which the same numbers are written, signs of zeros included, are both valid against the generated schema or both
not: for all types, also with integers, for which the readers do not agree with the schema (`C121_integers`). -/
theorem C121_schema (env : Env) (hn : env.NamesDiffer) (hp : ∀ c, PlainName (className env c)) (version : Option Str) (fuel : Nat) (t : Ty) (s : Schema) (D : Defs)
    (hb : buildSchema env fuel t = some (s, D)) (doc doc' : Json) (h : DocAlike (fun m n => SameNumber m n ∨ IsZero m ∧ IsZero n) doc doc') :
    (ValidAgainst (schemaDoc version D s) doc ↔ ValidAgainst (schemaDoc version D s) doc') ∧
    (InvalidAgainst (schemaDoc version D s) doc ↔ InvalidAgainst (schemaDoc version D s) doc') := by
  have key := meets_alike env doc doc' t (alike_mono (fun _ _ => same_fraction) h)
  rw [C112_valid env hn hp version fuel t s D hb, C112_valid env hn hp version fuel t s D hb, C112_invalid env hn hp version fuel t s D hb,
    C112_invalid env hn hp version fuel t s D hb]
  exact ⟨key, not_congr key⟩

/-- `[5, -0.0]` and `[5.0, 0]` as sets of integers. -/
example : ∃ s D, buildSchema plainEnv 9 (.set tInt) = some (s, D) ∧
    ValidAgainst (schemaDoc none D s) (.arr [.num (.dbl (.fin false 2 0)), .num (.int 0)]) :=
  ⟨_, _, rfl, (C121_schema plainEnv plain_names plain_plain none 9 (.set tInt) _ _ rfl (.arr [.num (.int 5), .num (.dbl (.zero true))]) _
    (.arr _ _ (.cons _ _ _ _ (.num _ _ (.inl (.point 5 (.fin false 2 0) ⟨by decide, by decide⟩ (by decide) (by decide))))
      (.cons _ _ _ _ (.num _ _ (.inr ⟨.inr ⟨true, rfl⟩, .inl rfl⟩)) .nil)))).1.1
    (verdict_of _ _ _ _ 5 fun _ => rfl)⟩

/-- `[1, 1.0]` contains a number twice. -/
example : ∃ s D, buildSchema plainEnv 9 (.set tInt) = some (s, D) ∧ InvalidAgainst (schemaDoc none D s) (.arr [.num (.int 1), .num (.dbl (.fin false 0 0))]) :=
  ⟨_, _, rfl, (C121_schema plainEnv plain_names plain_plain none 9 (.set tInt) _ _ rfl (.arr [.num (.int 1), .num (.int 1)]) _
    (.arr _ _ (.cons _ _ _ _ (.num _ _ (.inl (.same _)))
      (.cons _ _ _ _ (.num _ _ (.inl (.point 1 (.fin false 0 0) ⟨by decide, by decide⟩ (by decide) (by decide)))) .nil)))).2.1
    (verdict_of _ _ _ _ 5 fun _ => rfl)⟩

end Verif.Props
