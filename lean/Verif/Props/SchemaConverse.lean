import Verif.SchemaConverse
import Verif.ReadLeft
import Verif.Props.Agree
import Verif.Props.SchemaReads

/-!
# What can be read is valid against the schema (C111)
-/

namespace Verif.Demo
open Verif.Core Verif.Numeric Verif.EnumConv JsonSchema

theorem schema_depictable : DepictableClasses schemaEnv (fun _ => True) := by
  intro c _
  match c with
  | 0 => exact ⟨by simp [schemaEnv, Env.members, point, Depictable], by decide⟩
  | 1 =>
    refine ⟨?_, by decide⟩
    have hm : schemaEnv.members 1 = shape.members := rfl
    simp [hm, shape, Depictable, DepictableAll, Ty.kinds, Prim.kinds]
  | _ + 2 => exact ⟨by simp [schemaEnv, Env.members], by simp [schemaEnv, Env.members]⟩

/-- Points with their members in another order, and a dictionary. -/
def mixedTy : Ty := .tuple [.vec (.sptr (.cls 0)), .dict tInt, .set tStr]

/-- A document for it. -/
def mixedDoc : Json := .arr [.arr [.obj [(lit "y", .num (.int 2)), (lit "x", .num (.int 1))]], .arr [.arr [.str (lit "k"), .num (.int 3)]],
  .arr [.str (lit "b"), .str (lit "a")]]

/-- The parts of the document, with their types. -/
def mixedParts : List (Ty × Json) :=
  [(mixedTy.lower, mixedDoc),
   (.vec (.uptr (.cls 0)), .arr [.obj [(lit "y", .num (.int 2)), (lit "x", .num (.int 1))]]),
   (.uptr (.cls 0), .obj [(lit "y", .num (.int 2)), (lit "x", .num (.int 1))]),
   (.cls 0, .obj [(lit "y", .num (.int 2)), (lit "x", .num (.int 1))]),
   (tDbl, .num (.int 2)), (tDbl, .num (.int 1)),
   (.dict tInt, .arr [.arr [.str (lit "k"), .num (.int 3)]]),
   (.tuple [tStr, tInt], .arr [.str (lit "k"), .num (.int 3)]), (tStr, .str (lit "k")), (tInt, .num (.int 3)),
   (.set tStr, .arr [.str (lit "b"), .str (lit "a")]),
   (tStr, .str (lit "b")), (tStr, .str (lit "a"))]

theorem mixed_child {t t' : Ty} {j j' : Json} (h : (t, j) ∈ mixedParts) (hc : Child schemaEnv.lower t j t' j') : (t', j') ∈ mixedParts := by
  have hm0 : schemaEnv.lower.members 0 = point.members := rfl
  simp only [mixedParts, mixedTy, Ty.lower, Ty.lowers, mixedDoc, List.mem_cons, List.not_mem_nil, or_false, Prod.mk.injEq] at h
  rcases h with ⟨rfl, rfl⟩ | ⟨rfl, rfl⟩ | ⟨rfl, rfl⟩ | ⟨rfl, rfl⟩ | ⟨rfl, rfl⟩ | ⟨rfl, rfl⟩ | ⟨rfl, rfl⟩ | ⟨rfl, rfl⟩ | ⟨rfl, rfl⟩ | ⟨rfl, rfl⟩ | ⟨rfl, rfl⟩ | ⟨rfl, rfl⟩ | ⟨rfl, rfl⟩
  · cases hc with
    | tuple _ _ i _ _ h1 h2 =>
      match i with
      | 0 => cases h1; cases h2; simp [mixedParts]
      | 1 => cases h1; cases h2; simp [mixedParts]
      | 2 => cases h1; cases h2; simp [mixedParts]
      | _ + 3 => cases h1
  · cases hc with
    | vec _ _ _ h1 => rw [List.mem_singleton.1 h1]; simp [mixedParts]
  · cases hc with
    | uptr => simp [mixedParts]
  · cases hc with
    | cls _ _ m i _ hm hf =>
      rw [hm0] at hm
      simp only [point, List.mem_cons, List.not_mem_nil, or_false] at hm
      rcases hm with rfl | rfl
      · cases hf; simp [mixedParts]
      · cases hf; simp [mixedParts]
  · cases hc
  · cases hc
  · cases hc with
    | dict _ _ _ h1 => rw [List.mem_singleton.1 h1]; simp [mixedParts]
  · cases hc with
    | tuple _ _ i _ _ h1 h2 =>
      match i with
      | 0 => cases h1; cases h2; simp [mixedParts]
      | 1 => cases h1; cases h2; simp [mixedParts]
      | _ + 2 => cases h1
  · cases hc
  · cases hc
  · cases hc with
    | set _ _ _ h1 =>
      simp only [List.mem_cons, List.not_mem_nil, or_false] at h1
      rcases h1 with rfl | rfl <;> simp [mixedParts]
  · cases hc
  · cases hc

theorem mixed_part {t' : Ty} {j' : Json} (h : Part schemaEnv.lower mixedTy.lower mixedDoc t' j') : (t', j') ∈ mixedParts := by
  induction h with
  | self => exact .head _
  | child t1 j1 t2 j2 _ hc ih => exact mixed_child ih hc

theorem mixed_unmasked : VariantsUnmasked schemaEnv.lower mixedTy.lower mixedDoc := by
  intro ts j' hp
  simpa [mixedParts, mixedTy, Ty.lower] using mixed_part hp

theorem mixed_regular : Regular schemaEnv.lower mixedTy.lower mixedDoc := by
  constructor
  · intro c fields hp
    have h := mixed_part hp
    simp [mixedParts, mixedTy, Ty.lower] at h
    obtain ⟨rfl, rfl⟩ := h
    exact ⟨by decide, by decide⟩
  · intro t' js hp
    have h := mixed_part hp
    simp [mixedParts, mixedTy, Ty.lower] at h
    obtain ⟨-, rfl⟩ := h
    decide

end Verif.Demo

namespace Verif.Props
open Verif.Core Verif.Numeric Verif.EnumConv JsonSchema Verif.Demo

/-- The parts of days are leaves and variants of leaves. -/
theorem days_part {t' : Ty} {j' : Json} (h : Part schemaEnv.lower daysTy daysDoc t' j') :
    t' = daysTy ∨ t' = .variant [tInt, .prim .date] ∨ t' = tInt ∨ t' = .prim .date := by
  induction h with
  | self => exact .inl rfl
  | child t1 j1 t2 j2 _ hc ih =>
    rcases ih with rfl | rfl | rfl | rfl
    · cases hc with
      | vec => exact .inr (.inl rfl)
    · cases hc with
      | variant _ _ _ h => exact .inr (.inr (by simpa using h))
    · cases hc
    · cases hc

theorem days_regular : Regular schemaEnv.lower daysTy daysDoc := by
  constructor
  · intro c fields hp
    rcases days_part hp with h | h | h | h <;> cases h
  · intro t' js hp
    rcases days_part hp with h | h | h | h <;> cases h

theorem days_unmasked : VariantsUnmasked schemaEnv.lower daysTy daysDoc := by
  intro ts j' hp c fields hq
  rcases days_part (Part.trans hp hq) with h | h | h | h <;> cases h

/-- Points have no sets. -/
theorem points_part {j : Json} {t' : Ty} {j' : Json} (h : Part plainEnv (.vec (.cls 0)) j t' j') : t' = .vec (.cls 0) ∨ t' = .cls 0 ∨ t' = tDbl := by
  induction h with
  | self => exact .inl rfl
  | child t1 j1 t2 j2 _ hc ih =>
    rcases ih with rfl | rfl | rfl
    · cases hc with
      | vec => exact .inr (.inl rfl)
    · cases hc with
      | cls _ _ m i _ hm hf =>
        have hmem : plainEnv.members 0 = point.members := rfl
        rw [hmem] at hm
        simp only [point, List.mem_cons, List.not_mem_nil, or_false] at hm
        rcases hm with rfl | rfl <;> exact .inr (.inr rfl)
    · cases hc

theorem points_common : Common plainEnv (.vec (.cls 0)) pointsDoc := by
  refine Common.of (fun _ _ h => by cases h) (fun _ _ _ h => by cases h) (fun _ _ h => by cases h) fun t' j' h => ?_
  cases h with
  | vec _ _ _ hj =>
    rw [List.mem_singleton.1 hj]
    have hmem : plainEnv.members 0 = point.members := rfl
    refine Common.of ?_ (fun _ _ _ h => by cases h) (fun _ _ h => by cases h) fun t' j' h => ?_
    · intro c fields h1 h2
      cases h1
      cases h2
      rw [hmem]
      decide
    · cases h with
      | cls _ _ m i _ hm hf =>
        rw [hmem] at hm
        simp only [point, List.mem_cons, List.not_mem_nil, or_false] at hm
        rcases hm with rfl | rfl
        all_goals
          cases hf
          refine Common.of (fun _ _ h => by cases h) (fun _ _ _ h => by cases h) (fun f x h h' => ?_) fun t' j' h => by cases h
          cases h
          cases h'
          decide

theorem point_depictable : DepictableClasses plainEnv (· = 0) := by
  rintro c rfl
  have hmem : plainEnv.members 0 = point.members := rfl
  rw [hmem]
  exact ⟨by simp [point, Depictable], by decide⟩

/-- **C111 (partial), DOM reader.** If the throwing DOM reader returns a value for a document, the document is valid
against the schema generated for the type, for types without enumerations and with variants whose alternatives are read from
different kinds of JSON values, and documents without unknown members and without repetitions (`Regular`).

Missing: those types and documents, see the negations below; documents with references; members hidden by later ones inside
variants (C36); instants at which the clock overflows. -/
theorem C111_dom_partial (env : Env) (G : Nat → Prop) (hG : DepictableClasses env G) (hn : env.NamesDiffer) (hp : ∀ c, PlainName (className env c))
    (version : Option Str) (fuel : Nat) (t : Ty) (ht : Depictable G t) (s : Schema) (D : Defs) (hb : buildSchema env fuel t = some (s, D)) (doc : Json)
    (hr : doc.noRef) (hc : Calm env doc) (hun : VariantsUnmasked env.lower t.lower doc) (hreg : Regular env.lower t.lower doc)
    (next : Nat) (v : Val) (h : deserializeThrow env t doc next = .returned v) : ValidAgainst (schemaDoc version D s) doc := by
  have hd := (buildSchema_desc env hn fuel t s D hb).2
  have hno := (C33_shared_partial env t doc hr hc hun next).2.1 ⟨v, h⟩
  exact verdict_doc version D s doc true (conforms_valid G hG hp version s hd doc ht hno hreg)

example (next : Nat) (v : Val) (h : deserializeThrow schemaEnv mixedTy mixedDoc next = .returned v) :
    ∃ s D, buildSchema schemaEnv 9 mixedTy = some (s, D) ∧ ValidAgainst (schemaDoc none D s) mixedDoc :=
  ⟨_, _, rfl, C111_dom_partial schemaEnv _ schema_depictable schema_names schema_plain none 9 mixedTy (by simp [mixedTy, Depictable, DepictableAll]) _ _ rfl mixedDoc
    (by simp [mixedDoc, Json.noRef, Json.noRefAll, Json.noRefFields]; decide) (by simp [mixedDoc, Calm, CalmAll, CalmFields, CalmStr]; decide +kernel) mixed_unmasked mixed_regular next v h⟩

example : ∃ v, deserializeThrow schemaEnv mixedTy mixedDoc 0 = .returned v := ⟨_, rfl⟩

/-- **C111 (partial), exactly.** For these types and documents, if also the leaves have the formats of their types (C67), the
reader returns a value exactly if the document is valid against the schema. -/
theorem C111_exactly_partial (env : Env) (G : Nat → Prop) (hG : DepictableClasses env G) (hn : env.NamesDiffer) (hp : ∀ c, PlainName (className env c))
    (hdist : env.DistinctNames) (version : Option Str) (fuel : Nat) (t : Ty) (ht : Depictable G t) (s : Schema) (D : Defs)
    (hb : buildSchema env fuel t = some (s, D)) (doc : Json) (hr : doc.noRef) (hc : Calm env doc) (hun : VariantsUnmasked env.lower t.lower doc)
    (hreg : Regular env.lower t.lower doc) (hf : Formatted env t doc) (next : Nat) :
    (∃ v, deserializeThrow env t doc next = .returned v) ↔ ValidAgainst (schemaDoc version D s) doc :=
  ⟨fun ⟨v, h⟩ => C111_dom_partial env G hG hn hp version fuel t ht s D hb doc hr hc hun hreg next v h,
    fun h => (C67_dom_partial env hn hp hdist version fuel t s D hb doc h hf hr hc (.prim .null) next).2⟩

example (next : Nat) : ∃ s D, buildSchema schemaEnv 9 daysTy = some (s, D) ∧
    ((∃ v, deserializeThrow schemaEnv daysTy daysDoc next = .returned v) ↔ ValidAgainst (schemaDoc none D s) daysDoc) :=
  ⟨_, _, rfl, C111_exactly_partial schemaEnv _ schema_depictable schema_names schema_plain schema_distinct none 9 daysTy
    (by simp [daysTy, Depictable, DepictableAll, Ty.kinds, Prim.kinds]) _ _ rfl daysDoc
    (by simp [daysDoc, Json.noRef, Json.noRefAll]) (by simp only [daysDoc, Calm, CalmAll, CalmStr, and_true]; decide +kernel) days_unmasked days_regular
    days_formatted next⟩

/-- **C111 (partial), streaming parser.** If the parser returns a value for a document, the document is valid against the
schema, if also no required member is missing (`Common`).

Missing: as for the DOM reader; types with shared pointers; the types of C44 and C45; documents that exceed the handler stack
(C25). -/
theorem C111_parser_partial (env : Env) (G : Nat → Prop) (hG : DepictableClasses env G) (hn : env.NamesDiffer) (hp : ∀ c, PlainName (className env c))
    (version : Option Str) (fuel : Nat) (t : Ty) (ht : Depictable G t) (s : Schema) (D : Defs) (hb : buildSchema env fuel t = some (s, D)) (doc : Json)
    (hu : env.Unshared) (hdist : env.DistinctNames) (hbc : env.BlankCtor) (host : Host) (S : Nat → Prop)
    (hS : StreamableClasses env S) (hbt : TablesBuilt env host) (d : Nat) (hroom : Roomy host d) (hs : Streamable S t) (htu : t.unshared = true)
    (hdep : doc.depth ≤ d) (hprop : doc.proper = true) (hcalm : Calm env doc) (hcom : Common env t doc) (hbl : Blank env t (env.fresh t))
    (hsets : ∀ t' js, Part env t doc (.set t') (.arr js) → js.Pairwise fun a b => same a b = false)
    (n : Nat) (v : Val) (h : parseThrow env host t (.document doc) n = .returned v) : ValidAgainst (schemaDoc version D s) doc := by
  have hd := (buildSchema_desc env hn fuel t s D hb).2
  have hvar : VariantsUnmasked env t doc := fun ts j' hpart => (streamable_part hS hs hpart).elim
  have h' := (C61_same_returned_partial env hu hdist hbc host S hS hbt d hroom t hs htu doc hdep hprop hcalm hcom hbl n n v).1 h
  have hno : ¬ Fails env t doc := fun hfail => by
    obtain ⟨path, e, h''⟩ := (C33_exact_partial env hu t htu doc hcalm hvar n).1.2 hfail
    rw [h''] at h'
    cases h'
  have hreg : Regular env t doc := ⟨fun c fields hq => ⟨(hcom.objects c fields hq).1, (hcom.objects c fields hq).2.1⟩, hsets⟩
  refine verdict_doc version D s doc true (conforms_valid G hG hp version s hd doc ht ?_ ?_)
  · rwa [Env.lower_same hu, lower_same t htu]
  · rwa [Env.lower_same hu, lower_same t htu]

example (n : Nat) (v : Val) (h : parseThrow plainEnv host (.vec (.cls 0)) (.document pointsDoc) n = .returned v) :
    ∃ s D, buildSchema plainEnv 9 (.vec (.cls 0)) = some (s, D) ∧ ValidAgainst (schemaDoc none D s) pointsDoc :=
  ⟨_, _, rfl, C111_parser_partial plainEnv _ point_depictable plain_names plain_plain none 9 (.vec (.cls 0)) rfl _ _ rfl _ plainEnv_unshared plain_distinct
    plain_blank_ctor host streamed plain_streamable plain_built 100 host_roomy ⟨rfl, .inl rfl⟩ rfl (by decide +kernel) (by decide +kernel)
    (by simp [pointsDoc, Calm, CalmFields, CalmAll]) points_common (plain_blank_ctor _)
    (fun t' js hp => by rcases points_part hp with h | h | h <;> cases h) n v h⟩

example (n : Nat) : ∃ v, parseThrow plainEnv host (.vec (.cls 0)) (.document pointsDoc) n = .returned v := ⟨_, rfl⟩

/-- **C111 is false for unknown members**: the DOM reader ignores them, the schema forbids them. -/
theorem C111_unknown : ∃ s D doc, buildSchema Demo.env 9 (.cls 0) = some (s, D) ∧ (∃ v, deserializeThrow Demo.env (.cls 0) doc 0 = .returned v) ∧
    InvalidAgainst (schemaDoc none D s) doc :=
  ⟨_, _, .obj [(lit "x", .num (.int 1)), (lit "y", .num (.int 2)), (lit "z", .num (.int 3))], rfl, ⟨_, rfl⟩, verdict_of _ _ _ _ 3 fun _ => rfl⟩

/-- **C111 is false for repeated elements of sets**: both readers insert them again, the schema says `uniqueItems`. -/
theorem C111_repeated : ∃ s D doc, buildSchema Demo.env 9 (.set tInt) = some (s, D) ∧ (∃ v, deserializeThrow Demo.env (.set tInt) doc 0 = .returned v) ∧
    (∃ v, parseBool Demo.env host (.set tInt) (.document doc) (.set []) 0 = .accepted v) ∧ InvalidAgainst (schemaDoc none D s) doc :=
  ⟨_, _, .arr [.num (.int 1), .num (.int 1)], rfl, ⟨_, rfl⟩, ⟨_, rfl⟩, verdict_of _ _ _ _ 3 fun _ => rfl⟩

/-- **C111 is false for variants**: the reader takes the first alternative that fits, `oneOf` wants no other to fit. -/
theorem C111_variant : ∃ s D doc, buildSchema Demo.env 9 (.variant [tInt, tDbl]) = some (s, D) ∧
    (∃ v, deserializeThrow Demo.env (.variant [tInt, tDbl]) doc 0 = .returned v) ∧ InvalidAgainst (schemaDoc none D s) doc :=
  ⟨_, _, .num (.int 5), rfl, ⟨_, rfl⟩, verdict_of _ _ _ _ 2 fun _ => rfl⟩

/-- **C111 is false for references**, which every reader of shared pointers understands. -/
theorem C111_reference : ∃ s D doc, buildSchema Demo.env 9 (.vec (.sptr (.cls 0))) = some (s, D) ∧
    (∃ v, deserializeThrow Demo.env (.vec (.sptr (.cls 0))) doc 0 = .returned v) ∧ InvalidAgainst (schemaDoc none D s) doc :=
  ⟨_, _, .arr [.obj [(lit "x", .num (.int 1)), (lit "y", .num (.int 2))], .obj [(lit "$ref", .str (lit "/0"))]], rfl, ⟨_, rfl⟩, verdict_of _ _ _ _ 4 fun _ => rfl⟩

/-- **C111 is false for the streaming parser**: it does not ask for required members. -/
theorem C111_missing : ∃ s D doc, buildSchema Demo.env 9 (.cls 0) = some (s, D) ∧
    (∃ v, parseBool Demo.env host (.cls 0) (.document doc) (.obj [.prim .null, .prim .null]) 0 = .accepted v) ∧ InvalidAgainst (schemaDoc none D s) doc :=
  ⟨_, _, .obj [(lit "x", .num (.int 1))], rfl, ⟨_, rfl⟩, verdict_of _ _ _ _ 3 fun _ => rfl⟩

end Verif.Props
