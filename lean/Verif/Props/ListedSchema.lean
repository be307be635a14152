import Verif.ListedSchema
import Verif.Props.Listed
import Verif.Props.SchemaExact

/-!
# C126: the schema and the order of members
-/

namespace Verif.Props
open Verif.Core Verif.Numeric Verif.Demo Verif.Listed JsonSchema

/-- **C126.** The schemas that are generated for the two orders have the same valid documents: for all types, variants of classes included. (Their texts differ,
`C126_schema_text`.) -/
theorem C126_schema (env env' : Env) (hl : Relisted env env') (hd : env.DistinctNames) (hn : env.NamesDiffer) (hn' : env'.NamesDiffer)
    (hp : ∀ c, PlainName (className env c)) (hp' : ∀ c, PlainName (className env' c)) (version version' : Option Str) (fuel fuel' : Nat) (t : Ty) (s s' : Schema) (D D' : Defs)
    (hb : buildSchema env fuel t = some (s, D)) (hb' : buildSchema env' fuel' t = some (s', D')) (doc : Json) :
    (ValidAgainst (schemaDoc version D s) doc ↔ ValidAgainst (schemaDoc version' D' s') doc) ∧
    (InvalidAgainst (schemaDoc version D s) doc ↔ InvalidAgainst (schemaDoc version' D' s') doc) := by
  rw [C112_valid env hn hp version fuel t s D hb, C112_valid env' hn' hp' version' fuel' t s' D' hb',
    C112_invalid env hn hp version fuel t s D hb, C112_invalid env' hn' hp' version' fuel' t s' D' hb']
  exact ⟨meets_listed hl hd doc t, not_congr (meets_listed hl hd doc t)⟩

/-- **C126.** There is a schema for both orders or for none. -/
theorem C126_schema_exists (env env' : Env) (hl : Relisted env env') (t : Ty) :
    (∃ fuel r, buildSchema env fuel t = some r) ↔ ∃ fuel r, buildSchema env' fuel t = some r := by
  rw [C62_returns_partial, C62_returns_partial, uses_listed hl]

theorem back_names {env : Env} (h : env.NamesDiffer) : (backEnv env).NamesDiffer := by
  intro c c' hc
  have : env.classes c = env.classes c' := h c c' hc
  simp only [backEnv, this]

/-- **C126, the text.** The properties are listed in the order of the members. -/
theorem C126_schema_text : ∃ s D s' D', buildSchema schemaEnv 9 (.cls 0) = some (s, D) ∧ buildSchema (backEnv schemaEnv) 9 (.cls 0) = some (s', D') ∧
    schemaDoc none D s ≠ schemaDoc none D' s' :=
  ⟨_, _, _, _, rfl, rfl, by simp [schemaDoc, Schema.fields, Schema.entries, lit]⟩

example (doc : Json) : ∃ s D s' D', buildSchema schemaEnv 9 (.variant [.cls 1, .vec (.cls 0)]) = some (s, D) ∧
    buildSchema (backEnv schemaEnv) 9 (.variant [.cls 1, .vec (.cls 0)]) = some (s', D') ∧
    (ValidAgainst (schemaDoc none D s) doc ↔ ValidAgainst (schemaDoc none D' s') doc) :=
  ⟨_, _, _, _, rfl, rfl, (C126_schema schemaEnv (backEnv schemaEnv) (backEnv_relisted schemaEnv) schema_distinct schema_names (back_names schema_names) schema_plain schema_plain
    none none 9 9 (.variant [.cls 1, .vec (.cls 0)]) _ _ _ _ rfl rfl doc).1⟩

example : ∃ fuel r, buildSchema (backEnv schemaEnv) fuel (.cls 1) = some r :=
  (C126_schema_exists schemaEnv (backEnv schemaEnv) (backEnv_relisted schemaEnv) (.cls 1)).1 ⟨9, _, rfl⟩

/-- Classes that contain themselves have no schema in any order. -/
example : ¬ ∃ fuel r, buildSchema (backEnv Demo.env) fuel (.cls 4) = some r := by
  rw [← C126_schema_exists Demo.env (backEnv Demo.env) (backEnv_relisted Demo.env) (.cls 4)]
  rintro ⟨fuel, r, h⟩
  rw [C62_recursive Demo.env 4 (.single ⟨_, .tail _ (.head _), by simp [Ty.classes]⟩) fuel] at h
  cases h

end Verif.Props
