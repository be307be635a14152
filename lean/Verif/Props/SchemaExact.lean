import Verif.SchemaGrow
import Verif.Props.SchemaReads

/-!
# Exactly the valid documents (C112), and documents that stay valid (C113)
-/

namespace Verif.Props
open Verif.Core Verif.Numeric Verif.EnumConv JsonSchema Verif.Demo

/-! ## C112 -/

/-- **C112.** A document is valid against the generated schema exactly if it meets the type. `NamesDiffer`, `PlainName`: what
`typeid` names are like. -/
theorem C112_valid (env : Env) (hn : env.NamesDiffer) (hp : ∀ c, PlainName (className env c)) (version : Option Str) (fuel : Nat) (t : Ty) (s : Schema) (D : Defs)
    (hb : buildSchema env fuel t = some (s, D)) (doc : Json) : ValidAgainst (schemaDoc version D s) doc ↔ Meets env doc t := by
  have hd := (buildSchema_desc env hn fuel t s D hb).2
  exact ⟨fun h => (valid_exact hp version s hd doc).1 (verdict_schema h), fun h => verdict_doc version D s doc true ((valid_exact hp version s hd doc).2 h)⟩

/-- **C112.** Validation comes to a verdict for every document, so that all other documents are rejected. -/
theorem C112_invalid (env : Env) (hn : env.NamesDiffer) (hp : ∀ c, PlainName (className env c)) (version : Option Str) (fuel : Nat) (t : Ty) (s : Schema) (D : Defs)
    (hb : buildSchema env fuel t = some (s, D)) (doc : Json) : InvalidAgainst (schemaDoc version D s) doc ↔ ¬ Meets env doc t := by
  have hd := (buildSchema_desc env hn fuel t s D hb).2
  rw [← C112_valid env hn hp version fuel t s D hb doc]
  constructor
  · intro h h'
    cases JsonSchema.Verdict.unique h h'
  · intro h
    obtain ⟨b, hb⟩ := decided hp version s hd doc
    cases b with
    | false => exact verdict_doc version D s doc false hb
    | true => exact absurd (verdict_doc version D s doc true hb) h

/-- `[5, "2024-02-29"]` and `[5.0]` meet the type, `[5.5]` does not. -/
example : ∃ s D, buildSchema schemaEnv 9 daysTy = some (s, D) ∧ ValidAgainst (schemaDoc none D s) (.arr [.num (.dbl (.fin false 2 0))]) ∧
    InvalidAgainst (schemaDoc none D s) (.arr [.num (.dbl (.fin false 5 (-1)))]) := by
  refine ⟨_, _, rfl, (C112_valid schemaEnv schema_names schema_plain none 9 daysTy _ _ rfl _).2 ?_,
    (C112_invalid schemaEnv schema_names schema_plain none 9 daysTy _ _ rfl _).2 ?_⟩
  · rw [daysTy, meets_vec]
    intro x hx
    rw [List.mem_singleton.1 hx]
    refine meets_one schemaEnv _ _ (by simp [Ty.kinds, Prim.kinds]) tInt (by simp) ?_
    rw [Meets]
    exact ⟨_, 5, rfl, ⟨5, 0, rfl, rfl⟩, by decide, by decide⟩
  · rw [daysTy, meets_vec]
    intro h
    have h := h _ (List.mem_singleton.2 rfl)
    rw [Meets] at h
    obtain ⟨i, hi, h, -⟩ := h
    match i with
    | 0 =>
      replace h : Meets schemaEnv (.num (.dbl (.fin false 5 (-1)))) tInt := h
      rw [Meets] at h
      obtain ⟨x, v, hx, ⟨num, den, hf, he⟩, -⟩ := h
      cases hx
      cases hf
      have : (11 : Int) = v * 2 := he
      omega
    | 1 =>
      replace h : Meets schemaEnv (.num (.dbl (.fin false 5 (-1)))) (.prim .date) := h
      rw [Meets] at h
      obtain ⟨x, hx⟩ := h
      cases hx
    | _ + 2 => exact absurd hi (by simp)

/-! ## C113 -/

/-- **C113 (partial).** A document that is valid against the schema of the old type is valid against the schema of the new type, if the new
type is the old one with looser parts: larger ranges, optional members added, members in any order, alternatives added, pointers for
objects and the reverse, vectors for arrays, tuples and sets.

Missing: alternatives read from the same kind of JSON values, and removed members; both are changes that the DOM reader does not mind
(`C113_variant`, `C113_removed`). -/
theorem C113_loosened_partial (env env' : Env) (hn : env.NamesDiffer) (hn' : env'.NamesDiffer) (hp : ∀ c, PlainName (className env c))
    (hp' : ∀ c, PlainName (className env' c)) (R : Nat → Nat → Prop) (hR : LoosensClasses env env' R) (hdist : env'.DistinctNames) (version version' : Option Str)
    (fuel fuel' : Nat) (t t' : Ty) (hl : Loosens R t t') (s s' : Schema) (D D' : Defs) (hb : buildSchema env fuel t = some (s, D))
    (hb' : buildSchema env' fuel' t' = some (s', D')) (doc : Json) (h : ValidAgainst (schemaDoc version D s) doc) : ValidAgainst (schemaDoc version' D' s') doc :=
  (C112_valid env' hn' hp' version' fuel' t' s' D' hb' doc).2
    (meets_loosens hR hdist _ doc (Nat.le_refl _) t t' hl ((C112_valid env hn hp version fuel t s D hb doc).1 h))

/-- `Point` with its members in another order and a new optional member. -/
def labelledPoint : Class := ⟨lit "Point", [⟨lit "y", .required, tDbl⟩, ⟨lit "label", .optional, tStr⟩, ⟨lit "x", .required, tDbl⟩]⟩

/-- The program with this class. -/
def labelledEnv : Env := { Demo.env with classes := fun n => match n with | 0 => labelledPoint | 1 => shape | _ => ⟨lit "Empty", []⟩ }

theorem labelled_names : labelledEnv.NamesDiffer := by
  have key : ∀ c, labelledEnv.classes c = labelledPoint ∨ labelledEnv.classes c = shape ∨ labelledEnv.classes c = ⟨lit "Empty", []⟩ := by
    intro c
    match c with
    | 0 => exact .inl rfl
    | 1 => exact .inr (.inl rfl)
    | _ + 2 => exact .inr (.inr rfl)
  intro c c' h
  replace h : (labelledEnv.classes c).name = (labelledEnv.classes c').name := h
  rcases key c with h1 | h1 | h1 <;> rcases key c' with h2 | h2 | h2 <;> rw [h1, h2] at h ⊢ <;> exact absurd h (by decide)

theorem labelled_plain : ∀ c, PlainName (className labelledEnv c) := by
  intro c
  match c with
  | 0 => exact ⟨by decide, by decide⟩
  | 1 => exact ⟨by decide, by decide⟩
  | _ + 2 => show PlainName (lit "Empty"); exact ⟨by decide, by decide⟩

theorem labelled_distinct : labelledEnv.DistinctNames := by
  intro c
  match c with
  | 0 => show List.Nodup [lit "y", lit "label", lit "x"]; decide
  | 1 => show List.Nodup (shape.members.map (·.name)); decide
  | _ + 2 => exact List.nodup_nil

theorem labelled_loosens : LoosensClasses schemaEnv labelledEnv fun c c' => c = 0 ∧ c' = 0 := by
  rintro c c' ⟨rfl, rfl⟩
  constructor
  · intro m hm
    have hm' : m ∈ point.members := hm
    simp only [point, List.mem_cons, List.not_mem_nil, or_false] at hm'
    rcases hm' with rfl | rfl
    · exact ⟨⟨lit "x", .required, tDbl⟩, by show _ ∈ labelledPoint.members; simp [labelledPoint], rfl, .prim _ _ (.same _)⟩
    · exact ⟨⟨lit "y", .required, tDbl⟩, by show _ ∈ labelledPoint.members; simp [labelledPoint], rfl, .prim _ _ (.same _)⟩
  · intro m hm hk
    have hm' : m ∈ labelledPoint.members := hm
    simp only [labelledPoint, List.mem_cons, List.not_mem_nil, or_false] at hm'
    rcases hm' with rfl | rfl | rfl
    · exact ⟨⟨lit "y", .required, tDbl⟩, by show _ ∈ point.members; simp [point], rfl, nofun⟩
    · exact absurd rfl hk
    · exact ⟨⟨lit "x", .required, tDbl⟩, by show _ ∈ point.members; simp [point], rfl, nofun⟩

/-- `std::array<Point, 1>` becomes `std::vector<std::variant<std::string, std::shared_ptr<Point>>>`, with another class `Point`;
`[{"y": 0.5, "x": 3}]` stays valid. -/
example : ∃ s D s' D', buildSchema schemaEnv 9 (.arr 1 (.cls 0)) = some (s, D) ∧ buildSchema labelledEnv 9 (.vec (.variant [tStr, .sptr (.cls 0)])) = some (s', D') ∧
    ValidAgainst (schemaDoc none D s) pointsDoc ∧ ValidAgainst (schemaDoc none D' s') pointsDoc :=
  ⟨_, _, _, _, rfl, rfl, verdict_of _ _ _ _ 5 fun _ => rfl,
    C113_loosened_partial schemaEnv labelledEnv schema_names labelled_names schema_plain labelled_plain _ labelled_loosens labelled_distinct none none 9 9
      (.arr 1 (.cls 0)) (.vec (.variant [tStr, .sptr (.cls 0)]))
      (.arrVec _ _ _ (.toVariant _ (.sptr (.cls 0)) _ (by simp [Ty.kinds, Prim.kinds]) (by simp) (.toShared _ _ (.cls _ _ ⟨rfl, rfl⟩))))
      _ _ _ _ rfl rfl pointsDoc (verdict_of _ _ _ _ 5 fun _ => rfl)⟩

/-- **C113 (partial), files of the old program.** What the old program writes is valid against the schema of the new type. -/
theorem C113_written_partial (env env' : Env) (hn : env.NamesDiffer) (hn' : env'.NamesDiffer) (hp : ∀ c, PlainName (className env c))
    (hp' : ∀ c, PlainName (className env' c)) (R : Nat → Nat → Prop) (hR : LoosensClasses env env' R) (hdist : env'.DistinctNames) (version' : Option Str)
    (fuel fuel' : Nat) (t t' : Ty) (hl : Loosens R t t') (s s' : Schema) (D D' : Defs) (hb : buildSchema env fuel t = some (s, D))
    (hb' : buildSchema env' fuel' t' = some (s', D')) (hfair : env.Fair) (H : Heap) (G : Nat → Prop) (hG : DescribableClasses env G)
    (hless : ∀ v, env.less v v = false) (hk : Describable G t) (v : Val) (ht : HasTy env H v t) (hf : finite v = true) (hu : (addrs v).Nodup) (before : List Event) :
    ∃ j, writeToString env t v before = some (true, events j) ∧ ValidAgainst (schemaDoc version' D' s') j := by
  obtain ⟨j, h1, h2⟩ := C51_written_valid_partial env hfair H G hG hless hn hp none fuel t hk s D hb v ht hf hu before
  exact ⟨j, h1, C113_loosened_partial env env' hn hn' hp hp' R hR hdist none version' fuel fuel' t t' hl s s' D D' hb hb' j h2⟩

/-- A `Point` of the old program, against the schema of the class with another order of members and a new one. -/
example : ∃ s D s' D' j, buildSchema schemaEnv 9 (.vec (.cls 0)) = some (s, D) ∧ buildSchema labelledEnv 9 (.vec (.cls 0)) = some (s', D') ∧
    writeToString schemaEnv (.vec (.cls 0)) (.seq [goodPoint]) [] = some (true, events j) ∧
    ValidAgainst (schemaDoc none D' s') j := by
  obtain ⟨j, h1, h2⟩ := C113_written_partial schemaEnv labelledEnv schema_names labelled_names schema_plain labelled_plain _ labelled_loosens labelled_distinct none 9 9
    (.vec (.cls 0)) (.vec (.cls 0)) (.vec _ _ (.cls _ _ ⟨rfl, rfl⟩)) _ _ _ _ rfl rfl schema_fair schemaHeap _ schema_classes schema_less (by simp [Describable])
    (.seq [goodPoint]) ⟨ty_goodPoint', trivial⟩ rfl (by decide) []
  exact ⟨_, _, _, _, j, rfl, rfl, h1, h2⟩

/-- **C113 (partial), reading.** A document that is valid against the schema of the old type can be read by the new program, whatever program wrote it; `Formatted` and `Calm` as in C67. -/
theorem C113_reads_partial (env env' : Env) (hn : env.NamesDiffer) (hn' : env'.NamesDiffer) (hp : ∀ c, PlainName (className env c))
    (hp' : ∀ c, PlainName (className env' c)) (R : Nat → Nat → Prop) (hR : LoosensClasses env env' R) (hdist : env'.DistinctNames) (version : Option Str)
    (fuel fuel' : Nat) (t t' : Ty) (hl : Loosens R t t') (s s' : Schema) (D D' : Defs) (hb : buildSchema env fuel t = some (s, D))
    (hb' : buildSchema env' fuel' t' = some (s', D')) (doc : Json) (h : ValidAgainst (schemaDoc version D s) doc) (hf : Formatted env' t' doc) (hr : doc.noRef)
    (hc : Calm env' doc) (target : Val) (next : Nat) :
    (∃ v, deserializeBool env' t' doc target next = some (true, v)) ∧ ∃ v, deserializeThrow env' t' doc next = .returned v :=
  C67_dom_partial env' hn' hp' hdist version fuel' t' s' D' hb' doc
    (C113_loosened_partial env env' hn hn' hp hp' R hR hdist version version fuel fuel' t t' hl s s' D D' hb hb' doc h) hf hr hc target next

/-- `std::array<int, 2>` becomes `std::vector<long>`; `[1, -2]`. -/
example (target : Val) (next : Nat) : (∃ v, deserializeBool schemaEnv (.vec (.prim (.int ⟨.w64, true⟩))) (.arr [.num (.int 1), .num (.int (-2))]) target next = some (true, v)) ∧
    ∃ v, deserializeThrow schemaEnv (.vec (.prim (.int ⟨.w64, true⟩))) (.arr [.num (.int 1), .num (.int (-2))]) next = .returned v :=
  C113_reads_partial schemaEnv schemaEnv schema_names schema_names schema_plain schema_plain (fun _ _ => False) nofun schema_distinct none 9 9 (.arr 2 tInt)
    (.vec (.prim (.int ⟨.w64, true⟩))) (.arrVec _ _ _ (.prim _ _ (.int _ _ (by decide) (by decide)))) _ _ _ _ rfl rfl _ (verdict_of _ _ _ _ 5 fun _ => rfl)
    (by
      intro p j h
      cases h with
      | vec _ _ x hx h =>
        simp only [List.mem_cons, List.not_mem_nil, or_false] at hx
        rcases hx with rfl | rfl <;> cases h <;> trivial)
    (by simp [Json.noRef, Json.noRefAll]) (by simp [Calm, CalmAll]) target next

/-- **C113 is false for new alternatives of the same kind**: `std::variant<int, std::string>` becomes `std::variant<int, std::string, double>`; the
reader still reads `5`, for the schema it is no longer valid. -/
theorem C113_variant : ∃ s D s' D' doc, buildSchema Demo.env 9 (.variant [tInt, tStr]) = some (s, D) ∧
    buildSchema Demo.env 9 (.variant [tInt, tStr, tDbl]) = some (s', D') ∧ ValidAgainst (schemaDoc none D s) doc ∧
    InvalidAgainst (schemaDoc none D' s') doc ∧ ∃ v, deserializeThrow Demo.env (.variant [tInt, tStr, tDbl]) doc 0 = .returned v :=
  ⟨_, _, _, _, .num (.int 5), rfl, rfl, verdict_of _ _ _ _ 2 fun _ => rfl, verdict_of _ _ _ _ 2 fun _ => rfl, _, rfl⟩

/-- **C113 is false for removed members**: `Point` without `label` is read from the same documents, for the schema they are no longer valid. -/
theorem C113_removed : ∃ s D s' D' doc, buildSchema labelledEnv 9 (.cls 0) = some (s, D) ∧ buildSchema schemaEnv 9 (.cls 0) = some (s', D') ∧
    ValidAgainst (schemaDoc none D s) doc ∧ InvalidAgainst (schemaDoc none D' s') doc ∧ ∃ v, deserializeThrow schemaEnv (.cls 0) doc 0 = .returned v :=
  ⟨_, _, _, _, .obj [(lit "x", .num (.int 1)), (lit "label", .str (lit "a")), (lit "y", .num (.int 2))], rfl, rfl,
    verdict_of _ _ _ _ 4 fun _ => rfl, verdict_of _ _ _ _ 4 fun _ => rfl, _, rfl⟩

end Verif.Props
