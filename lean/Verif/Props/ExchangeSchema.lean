import Verif.ExchangeSchema
import Verif.Props.Exchange

/-!
# C123: containers that can be exchanged without a change of the valid documents

The specification is `look` (`Verif.ExchangeSchema`), which is finer than `form` for sets and coarser for shared pointers.
-/

namespace Verif.Props
open Verif.Core Verif.Numeric Verif.Demo Verif.Shuffle Verif.Exchange JsonSchema

/-- **C123, schema.** If two programs differ only in their choice of maps, of pointers, of floating-point types, of arrays and tuples of equal types, of vectors of pairs, and in
the order of alternatives, then the schemas that are generated for them have the same valid documents. -/
theorem C123_schema (env env' : Env) (hn : env.NamesDiffer) (hn' : env'.NamesDiffer) (hp : ∀ c, PlainName (className env c)) (hp' : ∀ c, PlainName (className env' c))
    (hs : ShuffledClasses (lookEnv env) (lookEnv env')) (version version' : Option Str) (fuel fuel' : Nat) (t t' : Ty) (h : Shuffled (look t) (look t')) (s s' : Schema)
    (D D' : Defs) (hb : buildSchema env fuel t = some (s, D)) (hb' : buildSchema env' fuel' t' = some (s', D')) (doc : Json) :
    (ValidAgainst (schemaDoc version D s) doc ↔ ValidAgainst (schemaDoc version' D' s') doc) ∧
    (InvalidAgainst (schemaDoc version D s) doc ↔ InvalidAgainst (schemaDoc version' D' s') doc) := by
  have r : Meets env doc t ↔ Meets env' doc t' :=
    (meets_look env doc t).trans ((meets_shuffled hs _ doc (Nat.le_refl _) _ _ h).trans (meets_look env' doc t').symm)
  exact ⟨(C112_valid env hn hp version fuel t s D hb doc).trans (r.trans (C112_valid env' hn' hp' version' fuel' t' s' D' hb' doc).symm),
    (C112_invalid env hn hp version fuel t s D hb doc).trans ((not_congr r).trans (C112_invalid env' hn' hp' version' fuel' t' s' D' hb' doc).symm)⟩

/-- A map of pairs of coordinates or vectors of named points. -/
def oldPlaces : Ty := .map true (.variant [.tuple [tDbl, tDbl], .dict (.cls 0)])

/-- The same with pointers, arrays, another map and the alternatives in another order. -/
def newPlaces : Ty := .map false (.variant [.vec (.tuple [tStr, .sptr (.cls 0)]), .uptr (.arr 2 (.prim (.flt .float)))])

theorem places_look : Shuffled (look oldPlaces) (look newPlaces) := by
  refine .map false _ _ (.variant _ _ (1 - ·) (1 - ·) rfl ?_ ?_ ?_)
  · intro i hi
    have : i < 2 := hi
    exact ⟨show 1 - i < 2 by omega, show 1 - (1 - i) = i by omega⟩
  · intro i hi
    have : i < 2 := hi
    exact ⟨show 1 - i < 2 by omega, show 1 - (1 - i) = i by omega⟩
  · intro i t t' h h'
    match i with
    | 0 => cases h; cases h'; exact shuffled_refl _
    | 1 => cases h; cases h'; exact shuffled_refl _
    | _ + 2 => cases h

/-- `{"a": [1, 2], "b": [["c", {"x": 1, "y": 2}]]}` is valid for the new type, since it is for the old one. -/
example : ∃ s D, buildSchema plainEnv 9 newPlaces = some (s, D) ∧ ValidAgainst (schemaDoc none D s) (.obj [(lit "a", .arr [.num (.int 1), .num (.int 2)]),
    (lit "b", .arr [.arr [.str (lit "c"), .obj [(lit "x", .num (.int 1)), (lit "y", .num (.int 2))]]])]) :=
  ⟨_, _, rfl, (C123_schema plainEnv plainEnv plain_names plain_names plain_plain plain_plain
    (fun c => ⟨rfl, fun k m m' h h' => by rw [h] at h'; cases h'; exact ⟨rfl, rfl, shuffled_refl _⟩⟩) none none 9 9 oldPlaces newPlaces places_look _ _ _ _ rfl rfl _).1.1
    (verdict_of _ _ _ _ 12 fun _ => rfl)⟩

/-- **C123, negation.** Sets and vectors have different schemas: `[1, 1]` is valid for a vector only, though both readers read it into a set. -/
theorem C123_schema_set : ∃ s D s' D', buildSchema plainEnv 9 (.vec tInt) = some (s, D) ∧ buildSchema plainEnv 9 (.set tInt) = some (s', D') ∧
    ValidAgainst (schemaDoc none D s) (.arr [.num (.int 1), .num (.int 1)]) ∧ InvalidAgainst (schemaDoc none D' s') (.arr [.num (.int 1), .num (.int 1)]) :=
  ⟨_, _, _, _, rfl, rfl, verdict_of _ _ _ _ 5 fun _ => rfl, verdict_of _ _ _ _ 5 fun _ => rfl⟩

end Verif.Props
