import Verif.SchemaInv

/-!
# Exactly which documents are valid against a generated schema

`Meets` says it in terms of the type and the document alone (specification). Then: validation always comes to a verdict,
and the verdict is that of `Meets`.
-/

namespace Verif.Core
open Verif.Numeric Verif.EnumConv JsonSchema

/-! ## Specification -/

/-- The number is the integer. -/
def WholeNum (x : JsonNum) (v : Int) : Prop := ∃ num den, fraction x = some (num, den) ∧ num = v * 2 ^ den

/-- The values that are valid for a type without components. There are none for enumerations. -/
def LeafMeets : Prim → Json → Prop
  | .null, j => j = .null
  | .bool, j => ∃ b, j = .bool b
  | .int t, j => ∃ x v, j = .num x ∧ WholeNum x v ∧ t.min ≤ v ∧ v ≤ t.max
  | .flt _, j => ∃ x, j = .num x
  | .str, j => ∃ s, j = .str s
  | .bytes, j => ∃ s, j = .str s
  | .time, j => ∃ s, j = .str s
  | .date, j => ∃ s, j = .str s
  | .enumInt _, _ => False
  | .enumStr _, _ => False

/-- The documents that are valid for a type: exactly one alternative of a variant, no two equal elements in a set,
only members of the class and all but optional ones. -/
def Meets (env : Env) : Json → Ty → Prop
  | j, .prim p => LeafMeets p j
  | .arr js, .vec t => ∀ x, (h : x ∈ js) → Meets env x t
  | .arr js, .arr n t => js.length = n ∧ ∀ x, (h : x ∈ js) → Meets env x t
  | .arr js, .set t => js.Pairwise (fun a b => same a b = false) ∧ ∀ x, (h : x ∈ js) → Meets env x t
  | .obj ms, .map _ t => ∀ q, (h : q ∈ ms) → Meets env q.2 t
  | .arr js, .dict t => ∀ x, (h : x ∈ js) → Meets env x (.tuple [.prim .str, t])
  | .arr js, .tuple ts => js.length = ts.length ∧ ∀ (i : Nat) (h : i < js.length) (h' : i < ts.length), Meets env js[i] ts[i]
  | j, .variant ts => ∃ i, ∃ h : i < ts.length, Meets env j ts[i] ∧ ∀ (k : Nat) (h : k < ts.length), k ≠ i → ¬ Meets env j ts[k]
  | .obj ms, .cls c => (∀ q, (h : q ∈ ms) → ∃ m, (env.members c).find? (fun m => m.name == q.1) = some m ∧ Meets env q.2 m.ty) ∧
      ∀ m ∈ env.members c, m.kind ≠ .optional → m.name ∈ ms.map (·.1)
  | j, .uptr t => Meets env j t
  | j, .sptr t => Meets env j t
  | _, _ => False
termination_by j t => (sizeOf j, sizeOf t)
decreasing_by
  all_goals first
    | (refine Prod.Lex.left _ _ ?_; have := List.sizeOf_lt_of_mem h; simp; omega)
    | (refine Prod.Lex.left _ _ ?_; have := List.sizeOf_lt_of_mem h; have : sizeOf q.2 < sizeOf q := by cases q; simp; omega
       simp; omega)
    | (refine Prod.Lex.left _ _ ?_; have := List.sizeOf_lt_of_mem (List.getElem_mem h); simp; omega)
    | (refine Prod.Lex.right _ ?_; have := List.sizeOf_lt_of_mem (List.getElem_mem h); simp; omega)
    | (refine Prod.Lex.right _ ?_; simp)

/-! ## There is always a verdict -/

theorem all3_known (l : List (Option Bool)) (h : ∀ x ∈ l, ∃ b, x = some b) : ∃ b, all3 l = some b := by
  induction l with
  | nil => exact ⟨_, rfl⟩
  | cons a l ih =>
    obtain ⟨x, rfl⟩ := h a (by simp)
    obtain ⟨y, hy⟩ := ih fun x hx => h x (by simp [hx])
    rw [all3, hy]
    cases x <;> cases y <;> exact ⟨_, rfl⟩

theorem count3_known (l : List (Option Bool)) (h : ∀ x ∈ l, ∃ b, x = some b) : ∃ n, count3 l = some n := by
  induction l with
  | nil => exact ⟨_, rfl⟩
  | cons a l ih =>
    obtain ⟨x, rfl⟩ := h a (by simp)
    obtain ⟨y, hy⟩ := ih fun x hx => h x (by simp [hx])
    cases x <;> simp only [count3, hy] <;> exact ⟨_, rfl⟩

theorem known_all (root : Json) (l : List (Json × Json)) (h : ∀ p ∈ l, ∃ b, JsonSchema.Verdict root p.1 p.2 b) :
    ∃ n, ∀ p ∈ l, ∃ b, validate root n p.1 p.2 = some b := by
  have : ∃ n, ∀ fuel, n ≤ fuel → ∀ p ∈ l, ∃ b, validate root fuel p.1 p.2 = some b := by
    induction l with
    | nil => exact ⟨0, by simp⟩
    | cons p l ih =>
      obtain ⟨b, m, hm⟩ := h p (by simp)
      obtain ⟨n, hn⟩ := ih fun p hp => h p (by simp [hp])
      refine ⟨max m n, fun fuel hf q hq => ?_⟩
      rcases List.mem_cons.1 hq with rfl | hq
      · exact ⟨b, hm fuel (by omega)⟩
      · exact hn fuel (by omega) q hq
  obtain ⟨n, hn⟩ := this
  exact ⟨n, hn n (Nat.le_refl _)⟩

/-- The verdict is known if it is for the keywords that have subschemas. -/
theorem validate_known (root : Json) (n : Nat) (kw : List (Str × Json)) (doc : Json) (h1 : ∃ b, checkRef root (validate root n) kw doc = some b)
    (h2 : ∃ b, checkPrefix (validate root n) kw doc = some b) (h3 : ∃ b, checkItems (validate root n) kw doc = some b)
    (h4 : ∃ b, checkProperties (validate root n) kw doc = some b) (h5 : ∃ b, checkAdditional (validate root n) kw doc = some b)
    (h6 : ∃ b, checkOneOf (validate root n) kw doc = some b) : ∃ b, JsonSchema.Verdict root (.obj kw) doc b := by
  have : ∃ b, validate root (n + 1) (.obj kw) doc = some b := by
    rw [validate]
    apply all3_known
    simp only [List.forall_mem_cons, List.not_mem_nil, false_implies, implies_true, and_true]
    refine ⟨h1, ?_, ?_, ?_, ?_, h2, h3, ?_, ?_, ?_, h4, h5, ?_, h6⟩
    · rw [checkType]; split <;> exact ⟨_, rfl⟩
    · rw [checkEnum]; split <;> exact ⟨_, rfl⟩
    · rw [checkMin.eq_def]; split <;> exact ⟨_, rfl⟩
    · rw [checkMax.eq_def]; split <;> exact ⟨_, rfl⟩
    · rw [checkUnique.eq_def]; split <;> exact ⟨_, rfl⟩
    · rw [checkMinItems.eq_def]; split <;> exact ⟨_, rfl⟩
    · rw [checkMaxItems.eq_def]; split <;> exact ⟨_, rfl⟩
    · rw [checkRequired.eq_def]; split <;> exact ⟨_, rfl⟩
  obtain ⟨b, hb⟩ := this
  exact ⟨b, verdict_of_validate hb⟩

/-- Nothing is asked of the members of an object. -/
theorem properties_known (v : VFn) (kw : List (Str × Json)) (hk : propertiesOf kw = []) (doc : Json) : ∃ b, checkProperties v kw doc = some b := by
  cases doc with
  | obj ms =>
    rw [checkProperties, hk]
    refine all3_known _ fun x hx => ?_
    obtain ⟨q, -, rfl⟩ := List.mem_map.1 hx
    exact ⟨_, rfl⟩
  | _ => exact ⟨_, rfl⟩

theorem decided_leaf (root : Json) (p : Prim) (doc : Json) : ∃ b, JsonSchema.Verdict root (primSchema p).json doc b := by
  have hf : ∀ type f e, ∃ b, JsonSchema.Verdict root (Schema.fundamental type f e).json doc b := by
    intro type f e
    rw [Schema.json, Schema.fields]
    cases f <;> cases e <;> exact validate_known root 0 _ _ ⟨_, rfl⟩ ⟨_, rfl⟩ ⟨_, rfl⟩ (properties_known _ _ rfl _) ⟨_, rfl⟩ ⟨_, rfl⟩
  cases p with
  | int t =>
    rw [primSchema]
    split <;> exact validate_known root 0 _ _ ⟨_, rfl⟩ ⟨_, rfl⟩ ⟨_, rfl⟩ (properties_known _ _ rfl _) ⟨_, rfl⟩ ⟨_, rfl⟩
  | enumInt t | enumStr t => exact validate_known root 0 _ _ ⟨_, rfl⟩ ⟨_, rfl⟩ ⟨_, rfl⟩ (properties_known _ _ rfl _) ⟨_, rfl⟩ ⟨_, rfl⟩
  | _ => exact hf _ _ _

theorem decided_items (root : Json) (s : Schema) (u : Bool) (size : Option Nat) (h : ∀ doc, ∃ b, JsonSchema.Verdict root s.json doc b) (doc : Json) :
    ∃ b, JsonSchema.Verdict root (Schema.items s u size).json doc b := by
  cases doc with
  | arr js =>
    obtain ⟨n, hn⟩ := known_all root (js.map fun j => (s.json, j)) (fun p hp => by obtain ⟨j, -, rfl⟩ := List.mem_map.1 hp; exact h j)
    have hi : ∃ b, all3 (js.map (validate root n s.json)) = some b := all3_known _ fun x hx => by
      obtain ⟨j, hj, rfl⟩ := List.mem_map.1 hx
      exact hn (s.json, j) (List.mem_map.2 ⟨j, hj, rfl⟩)
    rw [Schema.json, Schema.fields]
    cases u <;> cases size <;> exact validate_known root n _ _ ⟨_, rfl⟩ ⟨_, rfl⟩ hi (properties_known _ _ rfl _) ⟨_, rfl⟩ ⟨_, rfl⟩
  | _ => exact ⟨_, rejects_type _ _ _ _ kind_array rfl _ (by simp [Json.kind])⟩

theorem decided_tuple (root : Json) (ss : List Schema) (h : ∀ s ∈ ss, ∀ doc, ∃ b, JsonSchema.Verdict root s.json doc b) (doc : Json) :
    ∃ b, JsonSchema.Verdict root (Schema.tuple ss).json doc b := by
  cases doc with
  | arr js =>
    obtain ⟨n, hn⟩ := known_all root ((ss.zip js).map fun p => (p.1.json, p.2)) (fun p hp => by
      obtain ⟨q, hq, rfl⟩ := List.mem_map.1 hp
      exact h q.1 (List.of_mem_zip hq).1 q.2)
    have hi : ∃ b, all3 (List.zipWith (validate root n) (Schema.jsons ss) js) = some b := all3_known _ fun x hx => by
      rw [jsons_eq, List.zipWith_map_left, ← List.map_uncurry_zip_eq_zipWith] at hx
      obtain ⟨q, hq, rfl⟩ := List.mem_map.1 hx
      exact hn _ (List.mem_map.2 ⟨q, hq, rfl⟩)
    rw [Schema.json, Schema.fields]
    exact validate_known root n _ _ ⟨_, rfl⟩ hi ⟨_, rfl⟩ (properties_known _ _ rfl _) ⟨_, rfl⟩ ⟨_, rfl⟩
  | _ => exact ⟨_, rejects_type _ _ _ _ kind_array rfl _ (by simp [Json.kind])⟩

theorem decided_mapping (root : Json) (s : Schema) (h : ∀ doc, ∃ b, JsonSchema.Verdict root s.json doc b) (doc : Json) :
    ∃ b, JsonSchema.Verdict root (Schema.mapping s).json doc b := by
  cases doc with
  | obj ms =>
    obtain ⟨n, hn⟩ := known_all root (ms.map fun q => (s.json, q.2)) (fun p hp => by obtain ⟨j, -, rfl⟩ := List.mem_map.1 hp; exact h j.2)
    have hi : ∃ b, all3 (ms.map fun q => validate root n s.json q.2) = some b := all3_known _ fun x hx => by
      obtain ⟨j, hj, rfl⟩ := List.mem_map.1 hx
      exact hn (s.json, j.2) (List.mem_map.2 ⟨j, hj, rfl⟩)
    rw [Schema.json, Schema.fields]
    exact validate_known root n _ _ ⟨_, rfl⟩ ⟨_, rfl⟩ ⟨_, rfl⟩ (properties_known _ _ rfl _) hi ⟨_, rfl⟩
  | _ => exact ⟨_, rejects_type _ _ _ _ kind_object rfl _ (by simp [Json.kind])⟩

theorem decided_object (root : Json) (ps : List (Str × Schema)) (rs : List Str) (h : ∀ p ∈ ps, ∀ doc, ∃ b, JsonSchema.Verdict root p.2.json doc b) (doc : Json) :
    ∃ b, JsonSchema.Verdict root (Schema.object ps rs).json doc b := by
  cases doc with
  | obj ms =>
    obtain ⟨n, hn⟩ := known_all root (ms.flatMap fun q => ps.map fun p => (p.2.json, q.2)) (fun x hx => by
      obtain ⟨q, -, hx⟩ := List.mem_flatMap.1 hx
      obtain ⟨p, hp, rfl⟩ := List.mem_map.1 hx
      exact h p hp q.2)
    have hi : ∃ b, all3 (ms.map fun q => match (Schema.entries ps).lookup q.1 with | some s => validate root n s q.2 | none => some true) = some b := by
      refine all3_known _ fun x hx => ?_
      obtain ⟨q, hq, rfl⟩ := List.mem_map.1 hx
      simp only [entries_lookup]
      cases hl : ps.lookup q.1 with
      | none => exact ⟨_, rfl⟩
      | some s => exact hn (s.json, q.2) (List.mem_flatMap.2 ⟨q, hq, List.mem_map.2 ⟨_, lookup_self_mem hl, rfl⟩⟩)
    by_cases ha : ∀ q ∈ ms, ps.lookup q.1 ≠ none
    · have hj : ∃ b, all3 (ms.map fun q => match (Schema.entries ps).lookup q.1 with | some _ => some true | none => validate root n (.bool false) q.2) = some b := by
        refine all3_known _ fun x hx => ?_
        obtain ⟨q, hq, rfl⟩ := List.mem_map.1 hx
        simp only [entries_lookup]
        cases hl : ps.lookup q.1 with
        | none => exact absurd hl (ha q hq)
        | some s => exact ⟨_, rfl⟩
      rw [Schema.json, Schema.fields]
      exact validate_known root n _ _ ⟨_, rfl⟩ ⟨_, rfl⟩ ⟨_, rfl⟩ hi hj ⟨_, rfl⟩
    · have : ∃ q ∈ ms, ps.lookup q.1 = none := Classical.byContradiction fun hn => ha fun q hq e => hn ⟨q, hq, e⟩
      obtain ⟨q, hq, hl⟩ := this
      refine ⟨false, .step 1 fun fuel hf => ?_⟩
      rw [Schema.json, Schema.fields, validate]
      apply all3_false
      have : checkAdditional (validate root fuel) [(lit "type", .str (lit "object")), (lit "properties", .obj (Schema.entries ps)), (lit "required", .arr (rs.map .str)),
          (lit "additionalProperties", .bool false)] (.obj ms) = some false := by
        show all3 (ms.map fun q => match (Schema.entries ps).lookup q.1 with | some _ => some true | none => validate root fuel (.bool false) q.2) = some false
        refine all3_false _ (List.mem_map.2 ⟨q, hq, ?_⟩)
        simp only [entries_lookup, hl]
        obtain ⟨k, rfl⟩ : ∃ k, fuel = k + 1 := ⟨fuel - 1, by omega⟩
        rfl
      simp [this]
  | _ => exact ⟨_, rejects_type _ _ _ _ kind_object rfl _ (by simp [Json.kind])⟩

theorem decided_oneOf (root : Json) (ss : List Schema) (doc : Json) (h : ∀ s ∈ ss, ∃ b, JsonSchema.Verdict root s.json doc b) :
    ∃ b, JsonSchema.Verdict root (Schema.oneOf ss).json doc b := by
  obtain ⟨n, hn⟩ := known_all root (ss.map fun s => (s.json, doc)) (fun p hp => by obtain ⟨s, hs, rfl⟩ := List.mem_map.1 hp; exact h s hs)
  have hi : ∃ b, (count3 ((Schema.jsons ss).map fun s => validate root n s doc)).map (· == 1) = some b := by
    obtain ⟨k, hk⟩ := count3_known ((Schema.jsons ss).map fun s => validate root n s doc) fun x hx => by
      rw [jsons_eq, List.map_map] at hx
      obtain ⟨s, hs, rfl⟩ := List.mem_map.1 hx
      exact hn (s.json, doc) (List.mem_map.2 ⟨s, hs, rfl⟩)
    rw [hk]
    exact ⟨_, rfl⟩
  rw [Schema.json, Schema.fields]
  exact validate_known root n _ _ ⟨_, rfl⟩ (by cases doc <;> exact ⟨_, rfl⟩) (by cases doc <;> exact ⟨_, rfl⟩) (properties_known _ _ rfl _) (by cases doc <;> exact ⟨_, rfl⟩) hi

theorem decided_ref {root : Json} {r : Str} {s : Schema} {doc : Json} (hr : resolve root r = some s.json) (h : ∃ b, JsonSchema.Verdict root s.json doc b) :
    ∃ b, JsonSchema.Verdict root (Schema.ref r).json doc b := by
  obtain ⟨b, n, hn⟩ := h
  have hi : ∃ b, checkRef root (validate root n) [(lit "$ref", Json.str r)] doc = some b := by
    refine ⟨b, ?_⟩
    show (match resolve root r with | some s => validate root n s doc | none => some false) = some b
    rw [hr]
    exact hn n (Nat.le_refl _)
  rw [Schema.json, Schema.fields]
  exact validate_known root n _ _ hi (by cases doc <;> exact ⟨_, rfl⟩) (by cases doc <;> exact ⟨_, rfl⟩) (properties_known _ _ rfl _) (by cases doc <;> exact ⟨_, rfl⟩) ⟨_, rfl⟩

/-- Validation comes to a verdict. -/
theorem decided {env : Env} {D : Defs} (hp : ∀ c, PlainName (className env c)) (version : Option Str) (s0 : Schema) {t : Ty} {s : Schema}
    (hd : Desc env D t s) : ∀ doc : Json, ∃ b, JsonSchema.Verdict (schemaDoc version D s0) s.json doc b := by
  induction hd with
  | prim p => exact decided_leaf _ p
  | vec t s _ ih | arr n t s _ ih | set t s _ ih | dict t s _ ih => exact decided_items _ _ _ _ ih
  | map o t s _ ih => exact decided_mapping _ _ ih
  | tuple ts ss hl _ ih =>
    refine decided_tuple _ _ fun s hs => ?_
    obtain ⟨i, hi, rfl⟩ := List.getElem_of_mem hs
    exact ih i (ts[i]'(by omega)) _ (List.getElem?_eq_getElem _) (List.getElem?_eq_getElem _)
  | variant ts ss hl _ ih =>
    refine fun doc => decided_oneOf _ _ doc fun s hs => ?_
    obtain ⟨i, hi, rfl⟩ := List.getElem_of_mem hs
    exact ih i (ts[i]'(by omega)) _ (List.getElem?_eq_getElem _) (List.getElem?_eq_getElem _) doc
  | cls c ps hn _ ih =>
    refine decided_object _ _ _ fun p hp => ?_
    obtain ⟨i, hi, rfl⟩ := List.getElem_of_mem hp
    have hlen : ps.length = (env.members c).length := by simpa using congrArg List.length hn
    exact ih i ((env.members c)[i]'(by omega)) _ (List.getElem?_eq_getElem _) (List.getElem?_eq_getElem _)
  | ref c s hl _ ih => exact fun doc => decided_ref (Desc.resolve version s0 hp hl) (ih doc)
  | uptr t s _ ih | sptr t s _ ih => exact ih

/-! ## The verdict -/

theorem pairwise_of_distinct (js : List Json) (h : distinct js = true) : js.Pairwise fun a b => same a b = false := by
  induction js with
  | nil => exact .nil
  | cons j js ih =>
    simp only [distinct, Bool.and_eq_true, List.all_eq_true, Bool.not_eq_true'] at h
    exact List.pairwise_cons.2 ⟨h.1, ih h.2⟩

theorem set_valid {root : Json} {s : Schema} {size : Option Nat} {js : List Json} (h : JsonSchema.Verdict root (Schema.items s true size).json (.arr js) true) :
    js.Pairwise fun a b => same a b = false := by
  obtain ⟨n, h⟩ := verdict_validate h
  rw [validate_true] at h
  obtain ⟨-, -, -, -, -, -, -, h1, -⟩ := h
  have : some (distinct js) = some true := by cases size <;> exact h1
  exact pairwise_of_distinct js (by simpa using this)

theorem count3_zero_mem (l : List (Option Bool)) (h : count3 l = some 0) : ∀ x ∈ l, x = some false := by
  induction l with
  | nil => simp
  | cons a l ih =>
    simp only [count3] at h
    split at h
    · cases h
    · rename_i hm
      cases h
      simp only [List.forall_mem_cons]
      exact ⟨trivial, ih hm⟩
    · cases h

theorem count3_one_mem (l : List (Option Bool)) (h : count3 l = some 1) :
    ∃ i : Nat, l[i]? = some (some true) ∧ ∀ (k : Nat) x, l[k]? = some x → k ≠ i → x = some false := by
  induction l with
  | nil => cases h
  | cons a l ih =>
    simp only [count3] at h
    split at h
    · rename_i hm
      simp at h
      subst h
      refine ⟨0, rfl, fun k x hl hk => ?_⟩
      cases k with
      | zero => exact absurd rfl hk
      | succ k => exact count3_zero_mem l hm x (List.mem_of_getElem? (by simpa using hl))
    · rename_i hm
      simp at h
      subst h
      obtain ⟨i, h1, h2⟩ := ih hm
      refine ⟨i + 1, by simpa using h1, fun k x hl hk => ?_⟩
      cases k with
      | zero => simpa using hl.symm
      | succ k => exact h2 k x (by simpa using hl) (by omega)
    · cases h

theorem oneOf_valid_one {root : Json} {ss : List Schema} {doc : Json} (h : JsonSchema.Verdict root (Schema.oneOf ss).json doc true) :
    ∃ (i : Nat) (s : Schema), ss[i]? = some s ∧ JsonSchema.Verdict root s.json doc true ∧
      ∀ (k : Nat) (s' : Schema), ss[k]? = some s' → k ≠ i → JsonSchema.Verdict root s'.json doc false := by
  obtain ⟨n, h⟩ := verdict_validate h
  rw [validate_true] at h
  have h1 := h.2.2.2.2.2.2.2.2.2.2.2.2.2
  have h1' : (count3 ((Schema.jsons ss).map fun s => validate root n s doc)).map (· == 1) = some true := h1
  cases hc : count3 ((Schema.jsons ss).map fun s => validate root n s doc) with
  | none => rw [hc] at h1'; cases h1'
  | some k =>
    rw [hc] at h1'
    simp at h1'
    subst h1'
    obtain ⟨i, h2, h3⟩ := count3_one_mem _ hc
    simp only [jsons_eq, List.getElem?_map, Option.map_eq_some_iff] at h2 h3
    obtain ⟨_, ⟨s, hs, rfl⟩, hv⟩ := h2
    exact ⟨i, s, hs, verdict_of_validate hv, fun k s' hk hne => verdict_of_validate (h3 k _ ⟨_, ⟨s', hk, rfl⟩, rfl⟩ hne)⟩

/-- WholeNum numbers between two integers. -/
theorem whole_between (x : JsonNum) (lo hi : Int) : (isInteger x = true ∧ numLe (.int lo) x = true ∧ numLe x (.int hi) = true) ↔
    ∃ v, WholeNum x v ∧ lo ≤ v ∧ v ≤ hi := by
  have hf : ∀ a : Int, fraction (.int a) = some (a, 0) := fun _ => rfl
  cases hx : fraction x with
  | none => simp [isInteger, WholeNum, hx]
  | some p =>
    obtain ⟨num, den⟩ := p
    simp only [isInteger, numLe, hf, hx, decide_eq_true_eq, WholeNum, Option.some.injEq, Prod.mk.injEq]
    have hpos : (0 : Int) < 2 ^ den := Int.pow_pos (by decide)
    constructor
    · rintro ⟨h1, h2, h3⟩
      obtain ⟨v, rfl⟩ := Int.dvd_of_emod_eq_zero h1
      refine ⟨v, ⟨_, _, ⟨rfl, rfl⟩, Int.mul_comm _ _⟩, ?_, ?_⟩
      · rw [Int.pow_zero, Int.mul_one, Int.mul_comm lo] at h2
        exact Int.le_of_mul_le_mul_left h2 hpos
      · rw [Int.pow_zero, Int.mul_one, Int.mul_comm hi] at h3
        exact Int.le_of_mul_le_mul_left h3 hpos
    · rintro ⟨v, ⟨_, _, ⟨rfl, rfl⟩, rfl⟩, h2, h3⟩
      rw [Int.pow_zero, Int.mul_one]
      exact ⟨Int.mul_emod_left _ _, Int.mul_le_mul_of_nonneg_right h2 (Int.le_of_lt hpos), Int.mul_le_mul_of_nonneg_right h3 (Int.le_of_lt hpos)⟩

theorem integer_accepts_num (root : Json) (lo hi : Int) (x : JsonNum) (h : isInteger x = true ∧ numLe (.int lo) x = true ∧ numLe x (.int hi) = true)
    (kw : List (Str × Json)) (hk : kw = [(lit "type", .str (lit "integer")), (lit "minimum", .num (.int lo)), (lit "maximum", .num (.int hi))]) :
    JsonSchema.Verdict root (.obj kw) (.num x) true := by
  subst hk
  refine .step 0 fun fuel _ => ?_
  rw [validate_true]
  exact ⟨rfl, congrArg some h.1, rfl, congrArg some h.2.1, congrArg some h.2.2, rfl, rfl, rfl, rfl, rfl, rfl, rfl, rfl, rfl⟩

theorem leaf_exact (root : Json) (p : Prim) (doc : Json) : JsonSchema.Verdict root (primSchema p).json doc true ↔ LeafMeets p doc := by
  have hint : ∀ (lo hi : Int) (kw : List (Str × Json)),
      kw = [(lit "type", .str (lit "integer")), (lit "minimum", .num (.int lo)), (lit "maximum", .num (.int hi))] →
      (JsonSchema.Verdict root (.obj kw) doc true ↔ ∃ x v, doc = .num x ∧ WholeNum x v ∧ lo ≤ v ∧ v ≤ hi) := by
    intro lo hi kw hk
    constructor
    · intro h
      obtain ⟨x, rfl, hx⟩ := integer_valid hk h
      obtain ⟨v, hv⟩ := (whole_between x lo hi).1 hx
      exact ⟨x, v, rfl, hv⟩
    · rintro ⟨x, v, rfl, hv⟩
      exact integer_accepts_num root lo hi x ((whole_between x lo hi).2 ⟨v, hv⟩) kw hk
  have hstr : ∀ f e, JsonSchema.Verdict root (Schema.fundamental (lit "string") f e).json doc true ↔ ∃ s, doc = .str s := by
    intro f e
    constructor
    · intro h
      have hk := kind_string doc (fundamental_valid h)
      cases doc <;> first | exact ⟨_, rfl⟩ | cases hk
    · rintro ⟨s, rfl⟩; exact fundamental_accepts _ _ _ _ _ rfl
  cases p with
  | null =>
    constructor
    · intro h
      have hk := kind_null doc (fundamental_valid h)
      cases doc <;> first | rfl | cases hk
    · rintro rfl; exact fundamental_accepts _ _ _ _ _ rfl
  | bool =>
    constructor
    · intro h
      have hk := kind_bool doc (fundamental_valid h)
      cases doc <;> first | exact ⟨_, rfl⟩ | cases hk
    · rintro ⟨b, rfl⟩; exact fundamental_accepts _ _ _ _ _ rfl
  | flt f =>
    constructor
    · intro h
      have hk := kind_number doc (fundamental_valid h)
      cases doc <;> first | exact ⟨_, rfl⟩ | cases hk
    · rintro ⟨b, rfl⟩; exact fundamental_accepts _ _ _ _ _ rfl
  | int t =>
    rw [primSchema, LeafMeets]
    split
    · exact hint _ _ _ rfl
    · rename_i hs
      have : t.min = 0 := by simp [IntTy.min, hs]
      rw [this]
      exact hint _ _ _ rfl
  | str | bytes | time | date => exact hstr _ _
  | enumInt t | enumStr t => exact ⟨fun h => (enumeration_valid h).elim, fun h => h.elim⟩

/-- The properties of the schema of a class are those of its members. -/
theorem property_find {ps : List (Str × Schema)} (k : Str) : ∀ {ms : List Member}, ps.map (·.1) = ms.map (·.name) →
    (ps.lookup k = none ∧ ms.find? (fun m => m.name == k) = none) ∨
      ∃ (i : Nat) (m : Member) (p : Str × Schema), ms[i]? = some m ∧ ps[i]? = some p ∧ ms.find? (fun m => m.name == k) = some m ∧ ps.lookup k = some p.2 := by
  induction ps with
  | nil =>
    intro ms h
    cases ms with
    | nil => exact .inl ⟨rfl, rfl⟩
    | cons m ms => simp at h
  | cons p ps ih =>
    intro ms h
    cases ms with
    | nil => simp at h
    | cons m ms =>
      obtain ⟨k', s⟩ := p
      simp only [List.map_cons, List.cons.injEq] at h
      rw [List.lookup_cons]
      by_cases hk : k' = k
      · refine .inr ⟨0, m, (k', s), rfl, rfl, ?_, ?_⟩
        · rw [List.find?_cons, ← h.1]; simp [hk]
        · simp [hk]
      · have h1 : (k == k') = false := by simpa using fun e => hk e.symm
        have h2 : (m.name == k) = false := by rw [← h.1]; simpa using hk
        rw [h1, List.find?_cons, h2]
        rcases ih h.2 with h | ⟨i, m', p, h⟩
        · exact .inl h
        · exact .inr ⟨i + 1, m', p, by simpa using h⟩

/-- A document is valid exactly if it meets the type. -/
theorem valid_exact {env : Env} {D : Defs} (hp : ∀ c, PlainName (className env c)) (version : Option Str) (s0 : Schema) {t : Ty} {s : Schema}
    (hd : Desc env D t s) : ∀ doc : Json, JsonSchema.Verdict (schemaDoc version D s0) s.json doc true ↔ Meets env doc t := by
  induction hd with
  | prim p => intro doc; rw [Meets]; exact leaf_exact _ p doc
  | vec t s _ ih =>
    intro doc
    constructor
    · intro h
      obtain ⟨js, rfl, h1, -⟩ := items_valid h
      rw [Meets]
      exact fun x hx => (ih x).1 (h1 x hx)
    · intro h
      cases doc with
      | arr js =>
        rw [Meets] at h
        exact items_accepts _ _ _ _ _ (fun x hx => (ih x).2 (h x hx)) (fun h => by cases h) (fun n h => by cases h)
      | _ => simp [Meets] at h
  | arr n t s _ ih =>
    intro doc
    constructor
    · intro h
      obtain ⟨js, rfl, h1, h2⟩ := items_valid h
      rw [Meets]
      exact ⟨h2 n rfl, fun x hx => (ih x).1 (h1 x hx)⟩
    · intro h
      cases doc with
      | arr js =>
        rw [Meets] at h
        exact items_accepts _ _ _ _ _ (fun x hx => (ih x).2 (h.2 x hx)) (fun h => by cases h) (fun m hm => by cases hm; exact h.1)
      | _ => simp [Meets] at h
  | set t s _ ih =>
    intro doc
    constructor
    · intro h
      obtain ⟨js, rfl, h1, -⟩ := items_valid h
      rw [Meets]
      exact ⟨set_valid h, fun x hx => (ih x).1 (h1 x hx)⟩
    · intro h
      cases doc with
      | arr js =>
        rw [Meets] at h
        exact items_accepts _ _ _ _ _ (fun x hx => (ih x).2 (h.2 x hx)) (fun _ => distinct_of_pairwise js h.1) (fun n h => by cases h)
      | _ => simp [Meets] at h
  | dict t s _ ih =>
    intro doc
    constructor
    · intro h
      obtain ⟨js, rfl, h1, -⟩ := items_valid h
      rw [Meets]
      exact fun x hx => (ih x).1 (h1 x hx)
    · intro h
      cases doc with
      | arr js =>
        rw [Meets] at h
        exact items_accepts _ _ _ _ _ (fun x hx => (ih x).2 (h x hx)) (fun h => by cases h) (fun n h => by cases h)
      | _ => simp [Meets] at h
  | map o t s _ ih =>
    intro doc
    constructor
    · intro h
      obtain ⟨ms, rfl, h1⟩ := mapping_valid h
      rw [Meets]
      exact fun q hq => (ih q.2).1 (h1 q hq)
    · intro h
      cases doc with
      | obj ms =>
        rw [Meets] at h
        exact mapping_accepts _ _ _ fun q hq => (ih q.2).2 (h q hq)
      | _ => simp [Meets] at h
  | tuple ts ss hl _ ih =>
    intro doc
    constructor
    · intro h
      obtain ⟨js, rfl, h1, h2⟩ := tuple_valid h
      rw [Meets]
      refine ⟨by omega, fun i hi hi' => ?_⟩
      have hs : ss[i]? = some (ss[i]'(by omega)) := List.getElem?_eq_getElem _
      exact (ih i _ _ (List.getElem?_eq_getElem hi') hs _).1 (h2 i _ _ hs (List.getElem?_eq_getElem hi))
    · intro h
      cases doc with
      | arr js =>
        rw [Meets] at h
        refine tuple_accepts _ _ _ (by omega) fun i s j hs hj => ?_
        obtain ⟨hi, rfl⟩ := List.getElem?_eq_some_iff.1 hj
        have hi' : i < ts.length := by omega
        exact (ih i _ _ (List.getElem?_eq_getElem hi') hs _).2 (h.2 i hi hi')
      | _ => simp [Meets] at h
  | variant ts ss hl hds ih =>
    intro doc
    have hM : Meets env doc (.variant ts) ↔ ∃ i, ∃ h : i < ts.length, Meets env doc ts[i] ∧ ∀ (k : Nat) (h : k < ts.length), k ≠ i → ¬ Meets env doc ts[k] := by
      rw [Meets]
    rw [hM]
    constructor
    · intro h
      obtain ⟨i, s, hs, hv, ho⟩ := oneOf_valid_one h
      have hi : i < ts.length := by
        have := (List.getElem?_eq_some_iff.1 hs).1
        omega
      refine ⟨i, hi, (ih i _ _ (List.getElem?_eq_getElem hi) hs doc).1 hv, fun k hk hne hm => ?_⟩
      have hsk : ss[k]? = some (ss[k]'(by omega)) := List.getElem?_eq_getElem _
      have := JsonSchema.Verdict.unique ((ih k _ _ (List.getElem?_eq_getElem hk) hsk doc).2 hm) (ho k _ hsk hne)
      cases this
    · rintro ⟨i, hi, hv, ho⟩
      have hs : ss[i]? = some (ss[i]'(by omega)) := List.getElem?_eq_getElem _
      refine oneOf_accepts _ _ _ i _ hs ((ih i _ _ (List.getElem?_eq_getElem hi) hs doc).2 hv) fun k s' hsk hne => ?_
      have hk : k < ts.length := by
        have := (List.getElem?_eq_some_iff.1 hsk).1
        omega
      obtain ⟨b, hb⟩ := decided hp version s0 (hds k _ _ (List.getElem?_eq_getElem hk) hsk) doc
      cases b with
      | false => exact hb
      | true => exact absurd ((ih k _ _ (List.getElem?_eq_getElem hk) hsk doc).1 hb) (ho k hk hne)
  | cls c ps hn _ ih =>
    intro doc
    constructor
    · intro h
      obtain ⟨ms, rfl, h1, h2⟩ := object_valid h
      rw [Meets]
      refine ⟨fun q hq => ?_, fun m hm hk => h2 m.name (List.mem_map.2 ⟨m, List.mem_filter.2 ⟨hm, by simpa using hk⟩, rfl⟩)⟩
      obtain ⟨s, hs, hv⟩ := h1 q hq
      rcases property_find q.1 hn with ⟨g, -⟩ | ⟨i, m, p, g1, g2, g3, g4⟩
      · rw [hs] at g; cases g
      · rw [hs] at g4
        cases g4
        exact ⟨m, g3, (ih i m p g1 g2 q.2).1 hv⟩
    · intro h
      cases doc with
      | obj ms =>
        rw [Meets] at h
        refine object_accepts _ _ _ _ (fun q hq => ?_) (fun k hk => ?_)
        · obtain ⟨m, hm, hv⟩ := h.1 q hq
          rcases property_find q.1 hn with ⟨-, g⟩ | ⟨i, m', p, g1, g2, g3, g4⟩
          · rw [hm] at g; cases g
          · rw [hm] at g3
            cases g3
            exact ⟨p.2, g4, (ih i m p g1 g2 q.2).2 hv⟩
        · obtain ⟨m, hm, rfl⟩ := List.mem_map.1 hk
          rw [List.mem_filter] at hm
          exact h.2 m hm.1 (by simpa using hm.2)
      | _ => simp [Meets] at h
  | ref c s hl _ ih =>
    intro doc
    rw [← ih doc]
    exact ⟨ref_valid (Desc.resolve version s0 hp hl), ref_accepts hp version s0 c s doc hl⟩
  | uptr t s _ ih | sptr t s _ ih =>
    intro doc
    rw [ih doc]
    cases doc <;> rw [Meets]

end Verif.Core
