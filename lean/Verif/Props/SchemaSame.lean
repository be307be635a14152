import Verif.SchemaSame
import Verif.Props.SchemaReads
import Verif.Props.ReadExact
import Verif.Props.Parse

/-!
# Programs with the same schema (C117)

The specification is what the generator and the readers return; `Schema.enumless` (no enumerations in the schema) and `Env.NoDefaults` (no
`MEMBER_VARIABLE_DEFAULT`, for which the generator does not compile) are all that is added.
-/

namespace Verif.Demo
open Verif.Core Verif.Numeric Verif.EnumConv

/-- A program with the same classes in another order, and with other pointers and maps: `middle` is owned, `other` is shared, `scores` is unordered. -/
def otherShape : Class := ⟨lit "Shape", [⟨lit "corners", .required, .vec (.cls 1)⟩, ⟨lit "origin", .required, .cls 1⟩, ⟨lit "label", .optional, tStr⟩,
  ⟨lit "tags", .required, .set tStr⟩, ⟨lit "choice", .required, .variant [tInt, tStr, .vec tInt]⟩, ⟨lit "scores", .required, .map true tInt⟩,
  ⟨lit "pair", .required, .tuple [tInt, .prim .null]⟩, ⟨lit "box", .required, .arr 2 (.prim .bool)⟩, ⟨lit "data", .required, .prim .bytes⟩,
  ⟨lit "when", .required, .prim .time⟩, ⟨lit "middle", .required, .uptr (.cls 1)⟩, ⟨lit "other", .optional, .sptr (.cls 1)⟩]⟩

/-- `Point` of that program, with `float` in place of `double`. -/
def otherPoint : Class := ⟨lit "Point", [⟨lit "x", .required, .prim (.flt .float)⟩, ⟨lit "y", .required, .prim (.flt .float)⟩]⟩

/-- That program. -/
def otherEnv : Env := { Demo.env with classes := fun n => match n with | 0 => otherShape | 1 => otherPoint | _ => ⟨lit "Empty", []⟩ }

theorem other_names : otherEnv.NamesDiffer := by
  intro c c' h
  match c, c' with
  | 0, 0 => rfl
  | 0, 1 => exact absurd h (by decide)
  | 0, _ + 2 => exact absurd (show lit "Shape" = lit "Empty" from h) (by decide)
  | 1, 0 => exact absurd h (by decide)
  | 1, 1 => rfl
  | 1, _ + 2 => exact absurd (show lit "Point" = lit "Empty" from h) (by decide)
  | _ + 2, 0 => exact absurd (show lit "Empty" = lit "Shape" from h) (by decide)
  | _ + 2, 1 => exact absurd (show lit "Empty" = lit "Point" from h) (by decide)
  | _ + 2, _ + 2 => rfl

theorem other_distinct : otherEnv.DistinctNames := by
  intro c
  match c with
  | 0 => exact (by decide : (otherShape.members.map (·.name)).Nodup)
  | 1 => exact (by decide : (otherPoint.members.map (·.name)).Nodup)
  | _ + 2 => exact List.Pairwise.nil

theorem other_plain : otherEnv.NoDefaults := by
  intro c
  match c with
  | 0 => exact (by decide : ∀ m ∈ otherShape.members, m.kind ≠ .default)
  | 1 => exact (by decide : ∀ m ∈ otherPoint.members, m.kind ≠ .default)
  | _ + 2 => exact fun m hm => absurd hm List.not_mem_nil

theorem schema_nodefaults : schemaEnv.NoDefaults := by
  intro c
  match c with
  | 0 => exact (by decide : ∀ m ∈ point.members, m.kind ≠ .default)
  | 1 => exact (by decide : ∀ m ∈ shape.members, m.kind ≠ .default)
  | _ + 2 => exact fun m hm => absurd hm List.not_mem_nil

end Verif.Demo

namespace Verif.Props
open Verif.Core Verif.Numeric Verif.EnumConv Verif.Demo

theorem lower_distinct {env : Env} (h : env.DistinctNames) : env.lower.DistinctNames := by
  intro c
  rw [Env.lower_members, List.map_map]
  exact h c

theorem lower_nodefaults {env : Env} (h : env.NoDefaults) : env.lower.NoDefaults := by
  intro c m hm
  rw [Env.lower_members] at hm
  obtain ⟨m, hm', rfl⟩ := List.mem_map.1 hm
  exact h c m hm'

theorem good_neg {env : Env} {D : Defs} (h : Defs.Good env D) : Schema.negProps D := negProps_of fun q hq => by
  obtain ⟨c, -, h1, -⟩ := h q hq
  exact desc_neg h1

/-- **C117, the text of a schema determines the schema.** If the generator makes the same document for two types, perhaps of different programs, then it has made the
same schema and the same definitions: no two of the schemas that it can make are written alike. -/
theorem C117_document (env env' : Env) (hn : env.NamesDiffer) (hn' : env'.NamesDiffer) (version version' : Option Str) (fuel fuel' : Nat) (t t' : Ty)
    (s s' : Schema) (D D' : Defs) (hb : buildSchema env fuel t = some (s, D)) (hb' : buildSchema env' fuel' t' = some (s', D')) :
    schemaDoc version D s = schemaDoc version' D' s' ↔ version = version' ∧ D = D' ∧ s = s' := by
  obtain ⟨g, d⟩ := buildSchema_desc env hn fuel t s D hb
  obtain ⟨g', d'⟩ := buildSchema_desc env' hn' fuel' t' s' D' hb'
  refine ⟨fun h => ?_, fun ⟨h1, h2, h3⟩ => by rw [h1, h2, h3]⟩
  obtain ⟨rfl, rfl⟩ := schemaDoc_inj (desc_neg d) (desc_neg d') (good_neg g) (good_neg g') h
  refine ⟨?_, rfl, rfl⟩
  simp only [schemaDoc, Json.obj.injEq, List.append_assoc, List.append_left_inj] at h
  cases version <;> cases version' <;> simp [optField] at h ⊢
  exact h

/-- `std::set<int>` and `std::vector<int>` have different texts; the two programs have the same text for `Shape`. -/
example : (∃ s D s' D', buildSchema schemaEnv 9 (.set tInt) = some (s, D) ∧ buildSchema schemaEnv 9 (.vec tInt) = some (s', D') ∧
      schemaDoc none D s ≠ schemaDoc none D' s') ∧
    ∃ s D s' D', buildSchema schemaEnv 9 (.cls 1) = some (s, D) ∧ buildSchema otherEnv 9 (.cls 0) = some (s', D') ∧ schemaDoc none D s = schemaDoc none D' s' :=
  ⟨⟨_, _, _, _, rfl, rfl, fun h => by
    obtain ⟨-, -, h⟩ := (C117_document schemaEnv schemaEnv schema_names schema_names none none 9 9 (.set tInt) (.vec tInt) _ _ _ _ rfl rfl).1 h
    cases h⟩,
   ⟨_, _, _, _, rfl, rfl, (C117_document schemaEnv otherEnv schema_names other_names none none 9 9 (.cls 1) (.cls 0) _ _ _ _ rfl rfl).2 ⟨rfl, rfl, rfl⟩⟩⟩

theorem good_plain {env : Env} {D : Defs} (h : Defs.Good env D) (he : Schema.enumlessProps D = true) : D.Plain := by
  intro k s hl
  obtain ⟨c, -, -, ho⟩ := h.lookup k s hl
  obtain ⟨i, hi⟩ := List.getElem?_of_mem (lookup_self_mem hl)
  exact ⟨enumlessProps_get he hi, ho⟩

/-- A document that is refused as a value of one type is refused as a value of the other. -/
theorem refused_transfer {env env' : Env} (hd : env.DistinctNames) (hd' : env'.DistinctNames)
    (hf : env.NoDefaults) (hf' : env'.NoDefaults) {t t' : Ty} {s : Schema} {D : Defs} (hD : D.Plain) (d : Desc env D t s) (d' : Desc env' D t' s)
    (he : s.enumless = true) (exc : Bool) (root : Json) (hc : Calm env root)
    (h : Refused env.lower exc t.lower root) : Refused env'.lower exc t'.lower root :=
  refused_same hD (lower_distinct hd) hd' (lower_nodefaults hf) hf' h s t' he ((calm_lower env root).2 hc) (desc_lower d) d'

/-- **C117 (partial).** Two types, perhaps of different programs, for which the generator makes the same document accept exactly the same documents without references: with
each of the two variants of the reader, whatever the objects are that are read into. So programs that agree on the schema can read each other's files. Missing are
enumerations, whose names the schema does not tell (`C117_enumeration`), and references (`C117_reference`); nothing of the sort holds of the streaming parser (`C117_parser`). -/
theorem C117_same_documents_partial (env env' : Env) (hn : env.NamesDiffer) (hn' : env'.NamesDiffer) (hd : env.DistinctNames) (hd' : env'.DistinctNames)
    (hf : env.NoDefaults) (hf' : env'.NoDefaults) (version version' : Option Str) (fuel fuel' : Nat) (t t' : Ty) (s s' : Schema) (D D' : Defs)
    (hb : buildSchema env fuel t = some (s, D)) (hb' : buildSchema env' fuel' t' = some (s', D')) (hdoc : schemaDoc version D s = schemaDoc version' D' s')
    (he : s.enumless = true) (heD : Schema.enumlessProps D = true) (root : Json) (hr : root.noRef) (hc : Calm env root) (hc' : Calm env' root)
    (target target' : Val) (next next' : Nat) :
    ((∃ v, deserializeBool env t root target next = some (true, v)) ↔ ∃ v, deserializeBool env' t' root target' next' = some (true, v)) ∧
    ((∃ v, deserializeThrow env t root next = .returned v) ↔ ∃ v, deserializeThrow env' t' root next' = .returned v) := by
  obtain ⟨-, rfl, rfl⟩ := (C117_document env env' hn hn' version version' fuel fuel' t t' s s' D D' hb hb').1 hdoc
  obtain ⟨g, d⟩ := buildSchema_desc env hn fuel t s D hb
  obtain ⟨-, d'⟩ := buildSchema_desc env' hn' fuel' t' s D hb'
  have hD := good_plain g heD
  have key : ∀ exc, Refused env.lower exc t.lower root ↔ Refused env'.lower exc t'.lower root := fun exc =>
    ⟨refused_transfer hd hd' hf hf' hD d d' he exc root hc, refused_transfer hd' hd hf' hf hD d' d he exc root hc'⟩
  rw [(C32_shared_verdict env t root hr hc target next).2, (C32_shared_verdict env' t' root hr hc' target' next').2,
    (C33_shared_verdict env t root hr hc next).2, (C33_shared_verdict env' t' root hr hc' next').2, key, key]
  exact ⟨Iff.rfl, Iff.rfl⟩

/-- A `Shape`, and one without `tags`. -/
def shapeFields (tags : List (Str × Json)) : Json := .obj ([(lit "corners", .arr [.obj [(lit "x", .num (.int 1)), (lit "y", .num (.int 2))]]),
  (lit "origin", .obj [(lit "y", .num (.int 0)), (lit "x", .num (.int 0))])] ++ tags ++
  [(lit "choice", .str (lit "c")), (lit "scores", .obj [(lit "k", .num (.int 3))]), (lit "pair", .arr [.num (.int 5), .null]),
   (lit "box", .arr [.bool true, .bool false]), (lit "data", .str (lit "AQID")), (lit "when", .str (lit "1970-01-01T00:00:00Z")),
   (lit "middle", .obj [(lit "x", .num (.int 1)), (lit "y", .num (.int 2))])])

theorem shapeFields_noRef (tags : List (Str × Json)) (h : tags = [] ∨ tags = [(lit "tags", .arr [.str (lit "a")])]) : (shapeFields tags).noRef := by
  rcases h with rfl | rfl <;>
  · simp only [shapeFields, Json.noRef, Json.noRefFields, Json.noRefAll, and_true, List.map_cons, List.map_nil, List.cons_append, List.nil_append, List.append_nil]
    decide +kernel

theorem shapeFields_calm (tags : List (Str × Json)) (h : tags = [] ∨ tags = [(lit "tags", .arr [.str (lit "a")])]) (env : Env) (hc : env.clk = 1000000000) :
    Calm env (shapeFields tags) := by
  rcases h with rfl | rfl <;>
  · simp only [shapeFields, Calm, CalmFields, CalmAll, CalmStr, and_true, ne_eq, hc, List.cons_append, List.nil_append, List.append_nil]
    decide +kernel

/-- The two programs, with a document that both accept and one that both refuse. -/
example (target target' : Val) (next next' : Nat) :
    (∃ v, deserializeBool otherEnv (.cls 0) (shapeFields [(lit "tags", .arr [.str (lit "a")])]) target' next' = some (true, v)) ∧
    ¬ ∃ v, deserializeThrow otherEnv (.cls 0) (shapeFields []) next' = .returned v :=
  ⟨(C117_same_documents_partial schemaEnv otherEnv schema_names other_names schema_distinct other_distinct schema_nodefaults other_plain none none 9 9 (.cls 1) (.cls 0) _ _ _ _
      rfl rfl rfl rfl rfl _ (shapeFields_noRef _ (.inr rfl)) (shapeFields_calm _ (.inr rfl) _ rfl) (shapeFields_calm _ (.inr rfl) _ rfl) target target' next next').1.1
      ⟨_, rfl⟩,
   fun h => by
    obtain ⟨v, h⟩ := (C117_same_documents_partial schemaEnv otherEnv schema_names other_names schema_distinct other_distinct schema_nodefaults other_plain none none 9 9 (.cls 1) (.cls 0) _ _ _ _
      rfl rfl rfl rfl rfl _ (shapeFields_noRef _ (.inl rfl)) (shapeFields_calm _ (.inl rfl) _ rfl) (shapeFields_calm _ (.inl rfl) _ rfl) target target' next next').2.2 h
    cases h⟩

/-- **C117 is false with enumerations**: the schema does not tell the names. -/
theorem C117_enumeration (target : Val) (next : Nat) : ∃ t t' s D root v, buildSchema schemaEnv 9 t = some (s, D) ∧ buildSchema schemaEnv 9 t' = some (s, D) ∧
    deserializeBool schemaEnv t root target next = some (true, v) ∧ ¬ ∃ v, deserializeBool schemaEnv t' root target next = some (true, v) :=
  ⟨tColor, .prim (.enumStr [(0, lit "low"), (1, lit "high")]), _, _, .str (lit "green"), _, rfl, rfl, rfl, fun ⟨v, h⟩ => by cases h⟩

/-- **C117 is false with references**: a vector of shared pointers has the schema of a vector of owning pointers, and its documents may refer to an object a second time. -/
theorem C117_reference (next : Nat) : ∃ s D root v, buildSchema schemaEnv 9 (.vec (.sptr (.cls 0))) = some (s, D) ∧
    buildSchema schemaEnv 9 (.vec (.uptr (.cls 0))) = some (s, D) ∧ deserializeThrow schemaEnv (.vec (.sptr (.cls 0))) root next = .returned v ∧
    ¬ ∃ v, deserializeThrow schemaEnv (.vec (.uptr (.cls 0))) root next = .returned v :=
  ⟨_, _, .arr [(.obj [(lit "x", .num (.dbl (.fin false 1 0))), (lit "y", .num (.dbl (.fin false 3 0)))]), .obj [(lit "$ref", .str (lit "/0"))]], _, rfl, rfl, rfl,
    fun ⟨v, h⟩ => by cases h⟩

/-- **C117 is false of the streaming parser**: `float` and `double` have the same schema, and a number beyond the range of `float` is refused for one and accepted for
the other. -/
theorem C117_parser (target : Val) (n : Nat) : ∃ s D root v, buildSchema schemaEnv 9 (.prim (.flt .double)) = some (s, D) ∧
    buildSchema schemaEnv 9 (.prim (.flt .float)) = some (s, D) ∧ parseBool schemaEnv host (.prim (.flt .double)) (.document root) target n = .accepted v ∧
    parseBool schemaEnv host (.prim (.flt .float)) (.document root) target n = .rejected :=
  ⟨_, _, .num (.dbl (.fin false 1 200)), _, rfl, rfl, rfl, rfl⟩

end Verif.Props
