import Verif.SchemaValid

/-!
# Documents that are valid against a generated schema

What validity says about the parts of a document, and that valid documents conform to the type (as far as a schema
can tell).
-/

namespace Verif.Core
open Verif.Numeric Verif.EnumConv JsonSchema

/-! ## More fuel does not change a verdict -/

/-- `b` is known wherever `a` is, and the same. -/
def KnownIn {α : Type} (a b : Option α) : Prop := a = none ∨ a = b

theorem KnownIn.rfl {α : Type} {a : Option α} : KnownIn a a := .inr (Eq.refl _)

theorem and3_knownIn {a a' b b' : Option Bool} (h : KnownIn a a') (h' : KnownIn b b') : KnownIn (and3 a b) (and3 a' b') := by
  rcases h with rfl | rfl <;> rcases h' with rfl | rfl
  · exact .inl rfl
  · cases b with
    | none => exact .inl rfl
    | some b =>
      cases b with
      | true => exact .inl rfl
      | false => right; cases a' with
        | none => rfl
        | some a => cases a <;> rfl
  · cases a with
    | none => exact .inl rfl
    | some a => cases a with
      | true => exact .inl rfl
      | false => exact .inr rfl
  · exact .rfl

theorem all3_knownIn {α : Type} (l : List α) (f g : α → Option Bool) (h : ∀ x ∈ l, KnownIn (f x) (g x)) : KnownIn (all3 (l.map f)) (all3 (l.map g)) := by
  induction l with
  | nil => exact .rfl
  | cons a l ih => exact and3_knownIn (h a (by simp)) (ih fun x hx => h x (by simp [hx]))

theorem count3_knownIn {α : Type} (l : List α) (f g : α → Option Bool) (h : ∀ x ∈ l, KnownIn (f x) (g x)) :
    KnownIn (count3 (l.map f)) (count3 (l.map g)) := by
  induction l with
  | nil => exact .rfl
  | cons a l ih =>
    simp only [List.map_cons, count3]
    rcases h a (by simp) with h1 | h1 <;> rcases ih fun x hx => h x (by simp [hx]) with h2 | h2
    · exact .inl (by rw [h1])
    · exact .inl (by rw [h1])
    · left; rw [h2]; cases f a with
      | none => rfl
      | some b => cases b <;> rfl
    · rw [h1, h2]; exact .rfl

theorem validate_knownIn (root : Json) : ∀ n schema doc, KnownIn (validate root n schema doc) (validate root (n + 1) schema doc) := by
  intro n
  induction n with
  | zero => intro schema doc; exact .inl rfl
  | succ n ih =>
    intro schema doc
    cases schema with
    | obj kw =>
      rw [validate, validate]
      have hz : ∀ ss js, KnownIn (all3 (List.zipWith (validate root n) ss js)) (all3 (List.zipWith (validate root (n + 1)) ss js)) := by
        intro ss js
        rw [← List.map_uncurry_zip_eq_zipWith, ← List.map_uncurry_zip_eq_zipWith]
        exact all3_knownIn _ _ _ fun p _ => ih p.1 p.2
      have h1 : KnownIn (checkRef root (validate root n) kw doc) (checkRef root (validate root (n + 1)) kw doc) := by
        simp only [checkRef]
        split
        · split
          · exact ih _ _
          · exact .rfl
        · exact .rfl
      have h2 : KnownIn (checkPrefix (validate root n) kw doc) (checkPrefix (validate root (n + 1)) kw doc) := by
        simp only [checkPrefix]
        split
        · exact hz _ _
        · exact .rfl
      have h3 : KnownIn (checkItems (validate root n) kw doc) (checkItems (validate root (n + 1)) kw doc) := by
        simp only [checkItems]
        split
        · exact all3_knownIn _ _ _ fun _ _ => ih _ _
        · exact .rfl
      have h4 : KnownIn (checkProperties (validate root n) kw doc) (checkProperties (validate root (n + 1)) kw doc) := by
        simp only [checkProperties]
        split
        · refine all3_knownIn _ _ _ fun p _ => ?_
          split
          · exact ih _ _
          · exact .rfl
        · exact .rfl
      have h5 : KnownIn (checkAdditional (validate root n) kw doc) (checkAdditional (validate root (n + 1)) kw doc) := by
        simp only [checkAdditional]
        split
        · refine all3_knownIn _ _ _ fun p _ => ?_
          split
          · exact .rfl
          · exact ih _ _
        · exact .rfl
      have h6 : KnownIn (checkOneOf (validate root n) kw doc) (checkOneOf (validate root (n + 1)) kw doc) := by
        simp only [checkOneOf]
        split
        · rcases count3_knownIn _ (fun s => validate root n s doc) (fun s => validate root (n + 1) s doc) (fun s _ => ih s doc) with h | h
          · exact .inl (by rw [h]; rfl)
          · rw [h]; exact .rfl
        · exact .rfl
      simp only [all3]
      exact and3_knownIn h1 <| and3_knownIn .rfl <| and3_knownIn .rfl <| and3_knownIn .rfl <| and3_knownIn .rfl <| and3_knownIn h2 <|
        and3_knownIn h3 <| and3_knownIn .rfl <| and3_knownIn .rfl <| and3_knownIn .rfl <| and3_knownIn h4 <| and3_knownIn h5 <|
        and3_knownIn .rfl <| and3_knownIn h6 .rfl
    | _ => exact .rfl

/-- A verdict that is reached once. -/
theorem verdict_of_validate {root schema doc : Json} {b : Bool} {n : Nat} (h : validate root n schema doc = some b) : Verdict root schema doc b := by
  refine ⟨n, fun fuel hf => ?_⟩
  induction hf with
  | refl => exact h
  | step _ ih =>
    rcases validate_knownIn root _ schema doc with h1 | h1
    · rw [ih] at h1; cases h1
    · rw [← h1]; exact ih

theorem verdict_validate {root : Json} {kw : List (Str × Json)} {doc : Json} {b : Bool} (h : Verdict root (.obj kw) doc b) :
    ∃ n, validate root (n + 1) (.obj kw) doc = some b := by
  obtain ⟨n, h⟩ := h
  exact ⟨n, h (n + 1) (by omega)⟩

/-! ## Parts of valid documents -/

theorem fundamental_valid {root : Json} {type : Str} {f e : Option Str} {doc : Json} (h : Verdict root (Schema.fundamental type f e).json doc true) :
    typeOk type doc = true := by
  obtain ⟨n, h⟩ := verdict_validate h
  rw [validate_true] at h
  have h1 := h.2.1
  have : checkType (Schema.fundamental type f e).fields doc = some (typeOk type doc) := by cases f <;> cases e <;> rfl
  rw [this] at h1
  simpa using h1

theorem enumeration_valid {root : Json} {type : Str} {doc : Json} (h : Verdict root (Schema.enumeration type).json doc true) : False := by
  obtain ⟨n, h⟩ := verdict_validate h
  rw [validate_true] at h
  have h1 := h.2.2.1
  cases h1

theorem integer_valid {root : Json} {lo hi : Int} {doc : Json} {kw : List (Str × Json)}
    (hk : kw = [(lit "type", .str (lit "integer")), (lit "minimum", .num (.int lo)), (lit "maximum", .num (.int hi))])
    (h : Verdict root (.obj kw) doc true) : ∃ x, doc = .num x ∧ isInteger x = true ∧ numLe (.int lo) x = true ∧ numLe x (.int hi) = true := by
  obtain ⟨n, h⟩ := verdict_validate h
  rw [validate_true] at h
  obtain ⟨-, h1, -, h2, h3, -⟩ := h
  subst hk
  have h1' : some (typeOk (lit "integer") doc) = some true := h1
  simp only [Option.some.injEq] at h1'
  have hk := kind_integer doc h1'
  cases doc <;> first | cases hk | skip
  rename_i x
  refine ⟨x, rfl, ?_, ?_, ?_⟩
  · have : typeOk (lit "integer") (.num x) = isInteger x := rfl
    rw [← this]; exact h1'
  · have h2' : some (numLe (.int lo) x) = some true := h2
    simpa using h2'
  · have h3' : some (numLe x (.int hi)) = some true := h3
    simpa using h3'

theorem items_valid {root : Json} {s : Schema} {u : Bool} {size : Option Nat} {doc : Json} (h : Verdict root (Schema.items s u size).json doc true) :
    ∃ js, doc = .arr js ∧ (∀ j ∈ js, Verdict root s.json j true) ∧ ∀ n, size = some n → js.length = n := by
  obtain ⟨n, h⟩ := verdict_validate h
  rw [validate_true] at h
  obtain ⟨-, h1, -, -, -, -, h2, -, h3, h4, -⟩ := h
  have h1' : some (typeOk (lit "array") doc) = some true := h1
  simp only [Option.some.injEq] at h1'
  have hk := kind_array doc h1'
  cases doc <;> first | cases hk | skip
  rename_i js
  refine ⟨js, rfl, ?_, ?_⟩
  · have hi : all3 (js.map (validate root n s.json)) = some true := by
      cases u <;> cases size <;> exact h2
    exact fun j hj => verdict_of_validate ((all3_true _).1 hi _ (List.mem_map.2 ⟨j, hj, rfl⟩))
  · rintro k rfl
    have h3' : some (numLe (.int k) (.int js.length)) = some true := by cases u <;> exact h3
    have h4' : some (numLe (.int js.length) (.int k)) = some true := by cases u <;> exact h4
    rw [numLe_int] at h3' h4'
    simp at h3' h4'
    omega

theorem tuple_valid {root : Json} {ss : List Schema} {doc : Json} (h : Verdict root (Schema.tuple ss).json doc true) :
    ∃ js, doc = .arr js ∧ js.length = ss.length ∧ ∀ (i : Nat) s j, ss[i]? = some s → js[i]? = some j → Verdict root s.json j true := by
  obtain ⟨n, h⟩ := verdict_validate h
  rw [validate_true] at h
  obtain ⟨-, h1, -, -, -, h2, -, -, h3, h4, -⟩ := h
  have h1' : some (typeOk (lit "array") doc) = some true := h1
  simp only [Option.some.injEq] at h1'
  have hk := kind_array doc h1'
  cases doc <;> first | cases hk | skip
  rename_i js
  refine ⟨js, rfl, ?_, ?_⟩
  · have h3' : some (numLe (.int ss.length) (.int js.length)) = some true := h3
    have h4' : some (numLe (.int js.length) (.int ss.length)) = some true := h4
    rw [numLe_int] at h3' h4'
    simp at h3' h4'
    omega
  · have hi : all3 (List.zipWith (validate root n) (Schema.jsons ss) js) = some true := h2
    intro i s j hs hj
    refine verdict_of_validate (n := n) ((all3_true _).1 hi _ ?_)
    refine List.mem_of_getElem? (i := i) ?_
    rw [List.getElem?_zipWith, jsons_eq, List.getElem?_map, hs, hj]
    rfl

theorem mapping_valid {root : Json} {s : Schema} {doc : Json} (h : Verdict root (Schema.mapping s).json doc true) :
    ∃ ms, doc = .obj ms ∧ ∀ q ∈ ms, Verdict root s.json q.2 true := by
  obtain ⟨n, h⟩ := verdict_validate h
  rw [validate_true] at h
  obtain ⟨-, h1, -, -, -, -, -, -, -, -, -, h2, -⟩ := h
  have h1' : some (typeOk (lit "object") doc) = some true := h1
  simp only [Option.some.injEq] at h1'
  have hk := kind_object doc h1'
  cases doc <;> first | cases hk | skip
  rename_i ms
  refine ⟨ms, rfl, fun q hq => ?_⟩
  have hi : all3 (ms.map fun q => validate root n s.json q.2) = some true := h2
  exact verdict_of_validate ((all3_true _).1 hi _ (List.mem_map.2 ⟨q, hq, rfl⟩))

theorem object_valid {root : Json} {ps : List (Str × Schema)} {rs : List Str} {doc : Json} (h : Verdict root (Schema.object ps rs).json doc true) :
    ∃ ms, doc = .obj ms ∧ (∀ q ∈ ms, ∃ s, ps.lookup q.1 = some s ∧ Verdict root s.json q.2 true) ∧ ∀ r ∈ rs, r ∈ ms.map (·.1) := by
  obtain ⟨n, h⟩ := verdict_validate h
  rw [validate_true] at h
  obtain ⟨-, h1, -, -, -, -, -, -, -, -, h2, h3, h4, -⟩ := h
  have h1' : some (typeOk (lit "object") doc) = some true := h1
  simp only [Option.some.injEq] at h1'
  have hk := kind_object doc h1'
  cases doc <;> first | cases hk | skip
  rename_i ms
  refine ⟨ms, rfl, fun q hq => ?_, fun r hr => ?_⟩
  · have h2' : all3 (ms.map fun q => match (Schema.entries ps).lookup q.1 with | some s => validate root n s q.2 | none => some true) = some true := h2
    have h3' : all3 (ms.map fun q => match (Schema.entries ps).lookup q.1 with | some _ => some true | none => validate root n (.bool false) q.2) = some true := h3
    have g2 := (all3_true _).1 h2' _ (List.mem_map.2 ⟨q, hq, rfl⟩)
    have g3 := (all3_true _).1 h3' _ (List.mem_map.2 ⟨q, hq, rfl⟩)
    rw [entries_lookup] at g2 g3
    cases hl : ps.lookup q.1 with
    | none => rw [hl] at g3; cases n <;> cases g3
    | some s =>
      rw [hl] at g2
      exact ⟨s, rfl, verdict_of_validate g2⟩
  · have h4' : some ((rs.map Json.str).all fun r => match r with | .str k => (ms.lookup k).isSome | _ => false) = some true := h4
    simp only [Option.some.injEq, List.all_eq_true] at h4'
    have := h4' (.str r) (List.mem_map.2 ⟨r, hr, rfl⟩)
    simp only at this
    cases hl : ms.lookup r with
    | none => simp [hl] at this
    | some x => exact List.mem_map.2 ⟨_, lookup_self_mem hl, rfl⟩

theorem count3_mem (l : List (Option Bool)) (n : Nat) (h : count3 l = some (n + 1)) : some true ∈ l := by
  induction l with
  | nil => cases h
  | cons a l ih =>
    simp only [count3] at h
    split at h
    · simp
    · rename_i hm
      cases h
      exact List.mem_cons_of_mem _ (ih hm)
    · cases h

theorem oneOf_valid {root : Json} {ss : List Schema} {doc : Json} (h : Verdict root (Schema.oneOf ss).json doc true) :
    ∃ s ∈ ss, Verdict root s.json doc true := by
  obtain ⟨n, h⟩ := verdict_validate h
  rw [validate_true] at h
  have h1 := h.2.2.2.2.2.2.2.2.2.2.2.2.2
  have h1' : (count3 ((Schema.jsons ss).map fun s => validate root n s doc)).map (· == 1) = some true := h1
  cases hc : count3 ((Schema.jsons ss).map fun s => validate root n s doc) with
  | none => rw [hc] at h1'; cases h1'
  | some k =>
    rw [hc] at h1'
    simp at h1'
    subst h1'
    obtain ⟨x, hx, he⟩ := List.mem_map.1 (count3_mem _ 0 hc)
    rw [jsons_eq] at hx
    obtain ⟨s, hs, rfl⟩ := List.mem_map.1 hx
    exact ⟨s, hs, verdict_of_validate he⟩

theorem ref_valid {root : Json} {r : Str} {s : Schema} {doc : Json} (hr : resolve root r = some s.json) (h : Verdict root (Schema.ref r).json doc true) :
    Verdict root s.json doc true := by
  obtain ⟨n, h⟩ := verdict_validate h
  rw [validate_true] at h
  have h1 := h.1
  have h1' : (match resolve root r with | some s => validate root n s doc | none => some false) = some true := h1
  rw [hr] at h1'
  exact verdict_of_validate h1'

/-- The verdict on the schema document is that on the schema. -/
theorem verdict_schema {version : Option Str} {D : Defs} {s : Schema} {doc : Json} (h : ValidAgainst (schemaDoc version D s) doc) :
    Verdict (schemaDoc version D s) s.json doc true := by
  obtain ⟨kw, h1, h2⟩ := doc_keywords version D s
  obtain ⟨n, h⟩ := h
  refine .step n fun fuel hf => ?_
  have h3 := h (fuel + 1) (by omega)
  generalize schemaDoc version D s = root at *
  subst h1
  rw [Schema.json, ← validate_congr _ fuel kw s.fields doc h2]
  exact h3

end Verif.Core
