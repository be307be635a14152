import Verif.SchemaAccepts
import Verif.Props.Agree
import Verif.Props.Schema
import Verif.Props.ReadExact

/-!
# C67: documents that are valid against a schema are readable
-/

namespace Verif.Props
open Verif.Core Verif.Numeric Verif.EnumConv Verif.Demo

/-! ## Examples -/

/-- `std::vector<std::variant<int, std::chrono::year_month_day>>` -/
def daysTy : Ty := .vec (.variant [tInt, .prim .date])

/-- `["2024-02-29", 5]` -/
def daysDoc : Json := .arr [.str (lit "2024-02-29"), .num (.int 5)]

theorem days_formatted : Formatted schemaEnv daysTy daysDoc := by
  intro p j' h
  cases h with
  | vec _ _ j hj hl =>
    simp only [List.mem_cons, List.not_mem_nil, or_false] at hj
    rcases hj with rfl | rfl <;> cases hl with
    | variant _ _ t ht hl =>
      simp only [List.mem_cons, List.not_mem_nil, or_false] at ht
      rcases ht with rfl | rfl <;> cases hl <;> first | trivial | exact ⟨_, _, _, rfl⟩

theorem schema_distinct : schemaEnv.DistinctNames := by
  intro c
  match c with
  | 0 => show List.Nodup [lit "x", lit "y"]; decide
  | 1 => show List.Nodup (shape.members.map (·.name)); decide
  | _ + 2 => exact List.nodup_nil

/-- `[{"y": 0.5, "x": 3}]` -/
def pointsDoc : Json := .arr [.obj [(lit "y", .num (.dbl (.fin false 1 (-1)))), (lit "x", .num (.int 3))]]

theorem points_leaf {p : Prim} {j : Json} (h : LeafAt plainEnv p j (.vec (.cls 0)) pointsDoc) :
    p = .flt .double ∧ (j = .num (.int 3) ∨ j = .num (.dbl (.fin false 1 (-1)))) := by
  cases h with
  | vec _ _ j hj hl =>
    simp only [List.mem_cons, List.not_mem_nil, or_false] at hj
    subst hj
    cases hl with
    | cls _ _ m j hm hj hl =>
      have hm' : m = ⟨lit "x", .required, tDbl⟩ ∨ m = ⟨lit "y", .required, tDbl⟩ := by simpa [Env.members, plainEnv, plainClasses, point] using hm
      have hj' : j = .num (.int 3) ∨ j = .num (.dbl (.fin false 1 (-1))) := by
        simp only [List.mem_cons, List.not_mem_nil, or_false, Prod.mk.injEq] at hj
        exact (hj.symm).imp (·.2) (·.2)
      rcases hm' with rfl | rfl <;> cases hl <;> exact ⟨rfl, hj'⟩

theorem points_formatted : Formatted plainEnv (.vec (.cls 0)) pointsDoc := by
  intro p j h
  obtain ⟨rfl, rfl | rfl⟩ := points_leaf h <;> trivial

theorem points_fitting : Fitting plainEnv (.vec (.cls 0)) pointsDoc := by
  intro p j h
  obtain ⟨rfl, rfl | rfl⟩ := points_leaf h
  · show (3 : Int).natAbs < 2 ^ 53
    decide
  · trivial

theorem points_keys : PlainKeys pointsDoc := by
  intro ms h
  cases h with
  | element _ x hx h =>
    simp only [List.mem_cons, List.not_mem_nil, or_false] at hx
    subst hx
    cases h with
    | self => exact ⟨by simp only [List.map_cons, List.map_nil]; decide, by simp only [List.map_cons, List.map_nil]; decide⟩
    | member _ k x hx h =>
      simp only [List.mem_cons, List.not_mem_nil, or_false, Prod.mk.injEq] at hx
      rcases hx with ⟨-, rfl⟩ | ⟨-, rfl⟩ <;> cases h

theorem plain_names : plainEnv.NamesDiffer := by
  have key : ∀ c, plainClasses c = point ∨ plainClasses c = item ∨ plainClasses c = sample ∨ plainClasses c = tree := by
    intro c
    unfold plainClasses
    split <;> simp
  intro c c' h
  show plainClasses c = plainClasses c'
  replace h : (plainClasses c).name = (plainClasses c').name := h
  rcases key c with h1 | h1 | h1 | h1 <;> rcases key c' with h2 | h2 | h2 | h2 <;> rw [h1, h2] at h ⊢ <;> exact absurd h (by decide)

theorem plain_plain : ∀ c, PlainName (className plainEnv c) := by
  intro c
  show PlainName (plainClasses c).name
  unfold plainClasses
  split <;> exact ⟨by decide, by decide⟩

theorem points_valid : ∃ s D, buildSchema plainEnv 9 (.vec (.cls 0)) = some (s, D) ∧ ValidAgainst (schemaDoc none D s) pointsDoc :=
  ⟨_, _, rfl, verdict_of _ _ _ _ 5 fun _ => rfl⟩

/-! ## C67 -/

/-- **C67 (partial), DOM reader.** A document that is valid against the schema generated for a type is accepted by
both variants of the DOM reader.

Missing: whole numbers written with a fraction or exponent (`C67_whole_number`) and texts without the format of their
type (`C67_format`), both excluded by `Formatted`; documents with references, instants at which the clock
overflows. -/
theorem C67_dom_partial (env : Env) (hn : env.NamesDiffer) (hp : ∀ c, PlainName (className env c)) (hdist : env.DistinctNames) (version : Option Str)
    (fuel : Nat) (t : Ty) (s : Schema) (D : Defs) (hb : buildSchema env fuel t = some (s, D)) (doc : Json)
    (hv : ValidAgainst (schemaDoc version D s) doc) (hf : Formatted env t doc) (hr : doc.noRef) (hc : Calm env doc) (target : Val) (next : Nat) :
    (∃ v, deserializeBool env t doc target next = some (true, v)) ∧ ∃ v, deserializeThrow env t doc next = .returned v := by
  have hd := (buildSchema_desc env hn fuel t s D hb).2
  have hno := valid_conforms hp version s hdist hd doc (verdict_schema hv) hf
  refine ⟨C32_shared_conforming_accepted env t doc hr hc hno target next, ?_⟩
  rw [(C33_shared_verdict env t doc hr hc next).2]
  intro h
  obtain ⟨path, e, h⟩ := (C33_shared_verdict env t doc hr hc next).1.2 h
  exact hno (C33_shared_throws_only_if_bad env t doc hr hc next path e h)

example (target : Val) (next : Nat) : (∃ v, deserializeBool schemaEnv daysTy daysDoc target next = some (true, v)) ∧
    ∃ v, deserializeThrow schemaEnv daysTy daysDoc next = .returned v :=
  C67_dom_partial schemaEnv schema_names schema_plain schema_distinct none 9 daysTy _ _ rfl daysDoc (verdict_of _ _ _ _ 5 fun _ => rfl) days_formatted
    (by simp [daysDoc, Json.noRef, Json.noRefAll]) (by simp only [daysDoc, Calm, CalmAll, CalmStr, and_true]; decide +kernel) target next

/-- **C67 (partial), streaming parser.** A valid document is accepted, whatever the target holds.

Missing: as for the DOM reader; integers beyond the digits of a floating-point type and numbers beyond the range of `float`
(`C67_parser_range`); the types of C44 and C45, variants, and documents that exceed the handler stack (C25). -/
theorem C67_parser_partial (env : Env) (hn : env.NamesDiffer) (hp : ∀ c, PlainName (className env c)) (version : Option Str)
    (fuel : Nat) (t : Ty) (s : Schema) (D : Defs) (hb : buildSchema env fuel t = some (s, D)) (doc : Json)
    (hv : ValidAgainst (schemaDoc version D s) doc) (hf : Formatted env t doc) (hfit : Fitting env t doc)
    (host : Host) (G : Nat → Prop) (hG : StreamableClasses env G) (hbt : TablesBuilt env host) (d : Nat) (hroom : Roomy host d) (hs : Streamable G t)
    (hdep : doc.depth ≤ d) (hpr : doc.proper = true) (target : Val) (n : Nat) : ∃ v, parseBool env host t (.document doc) target n = .accepted v := by
  have hd := (buildSchema_desc env hn fuel t s D hb).2
  obtain ⟨v, n', h⟩ := valid_means hp version s G hG hd doc hs (verdict_schema hv) hf hfit target n
  exact ⟨v, by rw [C42_document_partial env host G hG hbt d hroom t hs doc hdep hpr, h]; rfl⟩

example (target : Val) (n : Nat) : ∃ v, parseBool plainEnv host (.vec (.cls 0)) (.document pointsDoc) target n = .accepted v := by
  obtain ⟨s, D, hb, hv⟩ := points_valid
  exact C67_parser_partial plainEnv plain_names plain_plain none 9 _ s D hb pointsDoc hv points_formatted points_fitting host streamed plain_streamable
    plain_built 100 host_roomy ⟨rfl, .inl rfl⟩ (by decide +kernel) (by decide +kernel) target n

/-- **C67 (partial), both readers.** Both throwing readers return, and return the same value, if also no key is
repeated and no key contains a NUL character.

Missing: as above, and types with shared pointers. -/
theorem C67_same_value_partial (env : Env) (hn : env.NamesDiffer) (hp : ∀ c, PlainName (className env c)) (hdist : env.DistinctNames) (version : Option Str)
    (fuel : Nat) (t : Ty) (s : Schema) (D : Defs) (hb : buildSchema env fuel t = some (s, D)) (doc : Json)
    (hv : ValidAgainst (schemaDoc version D s) doc) (hf : Formatted env t doc) (hfit : Fitting env t doc) (hk : PlainKeys doc) (hcalm : Calm env doc)
    (hu : env.Unshared) (hc : env.BlankCtor) (host : Host) (G : Nat → Prop)
    (hG : StreamableClasses env G) (hbt : TablesBuilt env host) (d : Nat) (hroom : Roomy host d) (hs : Streamable G t) (ht : t.unshared = true)
    (hdep : doc.depth ≤ d) (hpr : doc.proper = true) (hbl : Blank env t (env.fresh t)) (n n' : Nat) :
    ∃ v, parseThrow env host t (.document doc) n = .returned v ∧ deserializeThrow env t doc n' = .returned v := by
  have hd := (buildSchema_desc env hn fuel t s D hb).2
  obtain ⟨v, h⟩ := C67_parser_partial env hn hp version fuel t s D hb doc hv hf hfit host G hG hbt d hroom hs hdep hpr (env.fresh t) n
  have h' : parseThrow env host t (.document doc) n = .returned v := by rw [parseThrow, h]
  have hcom := valid_common hp hdist version s hd (verdict_schema hv) (fun t' j' hpart ts he => by
    have := streamable_part hG hs hpart
    rw [he] at this
    exact this) hk hfit
  exact ⟨v, h', (C61_same_returned_partial env hu hdist hc host G hG hbt d hroom t hs ht doc hdep hpr hcalm hcom hbl n n' v).1 h'⟩

example (n n' : Nat) : ∃ v, parseThrow plainEnv host (.vec (.cls 0)) (.document pointsDoc) n = .returned v ∧
    deserializeThrow plainEnv (.vec (.cls 0)) pointsDoc n' = .returned v := by
  obtain ⟨s, D, hb, hv⟩ := points_valid
  exact C67_same_value_partial plainEnv plain_names plain_plain plain_distinct none 9 _ s D hb pointsDoc hv points_formatted points_fitting points_keys
    (by simp [pointsDoc, Calm, CalmFields, CalmAll]) plainEnv_unshared plain_blank_ctor host streamed plain_streamable plain_built 100 host_roomy
    ⟨rfl, .inl rfl⟩ rfl (by decide +kernel) (by decide +kernel) (plain_blank_ctor _) n n'

/-- **C67 is false for whole numbers with a fraction**: `3.0` is an integer for JSON schema, but no reader takes it
for an `int`. -/
theorem C67_whole_number : ∃ s D doc, buildSchema Demo.env 9 tInt = some (s, D) ∧ ValidAgainst (schemaDoc none D s) doc ∧
    deserializeThrow Demo.env tInt doc 0 = .threw (lit "/") (.expectedInt ⟨.w32, true⟩) ∧ parseBool Demo.env host tInt (.document doc) (.prim .null) 0 = .rejected :=
  ⟨_, _, .num (.dbl (.fin false 1 0)), rfl, verdict_of _ _ _ _ 2 fun _ => rfl, rfl, rfl⟩

/-- **C67 is false for formats**: a schema does not assert `format` and `contentEncoding`. -/
theorem C67_format : ∀ p ∈ [Prim.bytes, .time, .date], ∃ s D doc, buildSchema Demo.env 9 (.prim p) = some (s, D) ∧ ValidAgainst (schemaDoc none D s) doc ∧
    (∃ path e, deserializeThrow Demo.env (.prim p) doc 0 = .threw path e) ∧ parseBool Demo.env host (.prim p) (.document doc) (.prim .null) 0 = .rejected := by
  intro p hp
  simp only [List.mem_cons, List.not_mem_nil, or_false] at hp
  rcases hp with rfl | rfl | rfl
  · exact ⟨_, _, .str (lit "?"), rfl, verdict_of _ _ _ _ 2 fun _ => rfl, ⟨_, _, rfl⟩, rfl⟩
  · exact ⟨_, _, .str (lit "2024-02-29"), rfl, verdict_of _ _ _ _ 2 fun _ => rfl, ⟨_, _, rfl⟩, rfl⟩
  · exact ⟨_, _, .str (lit "2023-02-29"), rfl, verdict_of _ _ _ _ 2 fun _ => rfl, ⟨_, _, rfl⟩, rfl⟩

/-- **C67 is false for the range of floating-point types**: `2^53` is valid for a `double`, but the parser
refuses it. -/
theorem C67_parser_range : ∃ s D doc, buildSchema Demo.env 9 tDbl = some (s, D) ∧ ValidAgainst (schemaDoc none D s) doc ∧
    ∀ target n, parseBool Demo.env host tDbl (.document doc) target n = .rejected :=
  ⟨_, _, .num (.int (2 ^ 53)), rfl, verdict_of _ _ _ _ 2 fun _ => rfl, fun _ _ => rfl⟩

end Verif.Props
