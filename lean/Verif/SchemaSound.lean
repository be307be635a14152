import Verif.SchemaTerm
import Verif.RenderLemmas

/-!
# Written documents against generated schemas
-/

namespace Verif.Core
open Verif.Numeric Verif.EnumConv JsonSchema

/-! ## References -/

theorem splitSlash_plain (s : Str) (h : 47 ∉ s) : splitSlash s = [s] := by
  induction s with
  | nil => rfl
  | cons c s ih =>
    simp only [List.mem_cons, not_or] at h
    rw [splitSlash, if_neg (fun hc => h.1 hc.symm), ih h.2]

theorem splitSlash_append (a s : Str) (h : 47 ∉ a) : splitSlash (a ++ 47 :: s) = a :: splitSlash s := by
  induction a with
  | nil => simp [splitSlash]
  | cons c a ih =>
    simp only [List.mem_cons, not_or] at h
    rw [List.cons_append, splitSlash, if_neg (fun hc => h.1 hc.symm), ih h.2]

theorem unescape_plain (s : Str) (h : 126 ∉ s) : unescape s = s := by
  induction s with
  | nil => rfl
  | cons c s ih =>
    simp only [List.mem_cons, not_or] at h
    rw [unescape, ih h.2]
    · rintro s' rfl; exact absurd rfl h.1
    · rintro s' rfl; exact absurd rfl h.1

theorem entries_lookup (D : Defs) (k : Str) : (Schema.entries D).lookup k = (D.lookup k).map Schema.json := by
  induction D with
  | nil => rfl
  | cons p D ih =>
    obtain ⟨k', s⟩ := p
    simp only [Schema.entries, List.lookup_cons, ih]
    cases k == k' <;> rfl

theorem doc_lookup_definitions (version : Option Str) (D : Defs) (s : Schema) (h : D ≠ []) :
    ∃ kw, schemaDoc version D s = .obj kw ∧ kw.lookup (lit "definitions") = some (.obj (Schema.entries D)) := by
  refine ⟨_, rfl, ?_⟩
  rw [if_neg h]
  cases version <;> rfl

/-- A reference made by the generator leads to the entry of `definitions`. -/
theorem resolve_defRef (version : Option Str) (D : Defs) (s : Schema) (name : Str) (hs : 47 ∉ name) (ht : 126 ∉ name) (s' : Schema)
    (h : D.lookup name = some s') : resolve (schemaDoc version D s) (defRef name) = some s'.json := by
  have hD : D ≠ [] := by rintro rfl; cases h
  obtain ⟨kw, h1, h2⟩ := doc_lookup_definitions version D s hD
  have h3 : resolve (schemaDoc version D s) (defRef name) = walk (schemaDoc version D s) (splitSlash (lit "definitions" ++ 47 :: name)) := rfl
  rw [h3, splitSlash_append _ _ (by decide), splitSlash_plain name hs, h1, walk, unescape_plain _ (by decide), h2]
  simp only [walk, unescape_plain name ht, entries_lookup, h, Option.map_some]

/-- Keywords that assert something. -/
def keywords : List Str := [lit "$ref", lit "type", lit "enum", lit "minimum", lit "maximum", lit "prefixItems", lit "items", lit "uniqueItems",
  lit "minItems", lit "maxItems", lit "properties", lit "additionalProperties", lit "required", lit "oneOf"]

theorem validate_congr (root : Json) (n : Nat) (kw kw' : List (Str × Json)) (doc : Json) (h : ∀ k ∈ keywords, kw.lookup k = kw'.lookup k) :
    validate root (n + 1) (.obj kw) doc = validate root (n + 1) (.obj kw') doc := by
  simp only [keywords, List.forall_mem_cons] at h
  obtain ⟨h1, h2, h3, h4, h5, h6, h7, h8, h9, h10, h11, h12, h13, h14, -⟩ := h
  simp only [validate, checkRef, checkType, checkEnum, checkMin, checkMax, checkPrefix, checkItems, checkUnique, checkMinItems, checkMaxItems, checkProperties,
    checkAdditional, checkRequired, checkOneOf, propertiesOf, h1, h2, h3, h4, h5, h6, h7, h8, h9, h10, h11, h12, h13, h14]

/-- `$schema` and `definitions` assert nothing. -/
theorem doc_keywords (version : Option Str) (D : Defs) (s : Schema) :
    ∃ kw, schemaDoc version D s = .obj kw ∧ ∀ k ∈ keywords, kw.lookup k = s.fields.lookup k := by
  refine ⟨_, rfl, ?_⟩
  simp only [keywords, List.forall_mem_cons]
  cases version with
  | none =>
    by_cases h : D = []
    · rw [if_pos h]
      refine ⟨rfl, rfl, rfl, rfl, rfl, rfl, rfl, rfl, rfl, rfl, rfl, rfl, rfl, rfl, by simp⟩
    · rw [if_neg h]
      refine ⟨rfl, rfl, rfl, rfl, rfl, rfl, rfl, rfl, rfl, rfl, rfl, rfl, rfl, rfl, by simp⟩
  | some v =>
    by_cases h : D = []
    · rw [if_pos h]
      refine ⟨rfl, rfl, rfl, rfl, rfl, rfl, rfl, rfl, rfl, rfl, rfl, rfl, rfl, rfl, by simp⟩
    · rw [if_neg h]
      refine ⟨rfl, rfl, rfl, rfl, rfl, rfl, rfl, rfl, rfl, rfl, rfl, rfl, rfl, rfl, by simp⟩

theorem verdict_doc (version : Option Str) (D : Defs) (s : Schema) (doc : Json) (b : Bool) (h : Verdict (schemaDoc version D s) s.json doc b) :
    Verdict (schemaDoc version D s) (schemaDoc version D s) doc b := by
  obtain ⟨kw, h1, h2⟩ := doc_keywords version D s
  obtain ⟨n, h⟩ := h
  refine .step n fun fuel hf => ?_
  have h3 := h (fuel + 1) (by omega)
  generalize schemaDoc version D s = root at *
  subst h1
  rw [validate_congr _ fuel kw s.fields doc h2]
  exact h3

/-- All references of the schema document can be followed. -/
theorem Desc.resolve {env : Env} {D : Defs} (version : Option Str) (s0 : Schema) (hp : ∀ c, PlainName (className env c)) {c : Nat} {s : Schema}
    (h : D.lookup (className env c) = some s) : resolve (schemaDoc version D s0) (defRef (className env c)) = some s.json := by
  refine resolve_defRef version D s0 _ ?_ ?_ s h
  · have := (hp c).2
    simp only [plain, List.all_eq_true] at this
    exact fun hm => absurd (this _ hm) (by decide)
  · have := (hp c).2
    simp only [plain, List.all_eq_true] at this
    exact fun hm => absurd (this _ hm) (by decide)

/-! ## Documents of another kind are rejected -/

/-- The kinds of JSON values. -/
inductive JKind
  | null | bool | num | str | arr | obj
deriving DecidableEq, Repr

/-- The kind of a JSON value. -/
def Json.kind : Json → JKind
  | .null => .null
  | .bool _ => .bool
  | .num _ => .num
  | .str _ => .str
  | .arr _ => .arr
  | .obj _ => .obj

/-- The kinds of values that a schema of a type without components accepts. -/
def Prim.kinds : Prim → List JKind
  | .null => [.null]
  | .bool => [.bool]
  | .int _ => [.num]
  | .flt _ => [.num]
  | .enumInt _ => [.obj]
  | _ => [.str]

mutual
/-- The kinds of values that a schema of the type can accept. -/
def Ty.kinds : Ty → List JKind
  | .prim p => p.kinds
  | .vec _ => [.arr]
  | .arr _ _ => [.arr]
  | .set _ => [.arr]
  | .map _ _ => [.obj]
  | .dict _ => [.arr]
  | .tuple _ => [.arr]
  | .variant ts => Ty.kindsAll ts
  | .cls _ => [.obj]
  | .uptr t => t.kinds
  | .sptr t => t.kinds

/-- `Ty.kinds` for lists. -/
def Ty.kindsAll : List Ty → List JKind
  | [] => []
  | t :: ts => t.kinds ++ Ty.kindsAll ts
end

theorem mem_kindsAll (k : JKind) (ts : List Ty) : k ∈ Ty.kindsAll ts ↔ ∃ t ∈ ts, k ∈ t.kinds := by
  induction ts with
  | nil => simp [Ty.kindsAll]
  | cons t ts ih => simp [Ty.kindsAll, ih]

theorem typeOk_kind (type : Str) (k : JKind) (hk : ∀ j, typeOk type j = true → j.kind = k) (doc : Json) (h : doc.kind ≠ k) : typeOk type doc = false := by
  cases ht : typeOk type doc with
  | false => rfl
  | true => exact absurd (hk doc ht) h

theorem jsons_eq (ss : List Schema) : Schema.jsons ss = ss.map Schema.json := by
  induction ss with
  | nil => rfl
  | cons s ss ih => rw [Schema.jsons, ih]; rfl

theorem rejects_type (root : Json) (kw : List (Str × Json)) (type : Str) (k : JKind) (hk : ∀ j, typeOk type j = true → j.kind = k)
    (hl : kw.lookup (lit "type") = some (.str type)) (doc : Json) (h : doc.kind ∉ [k]) : Verdict root (.obj kw) doc false := by
  refine .step 0 fun fuel _ => validate_type_false root fuel kw doc ?_
  rw [checkType, hl]
  simp only
  rw [typeOk_kind type k hk doc (by simpa using h)]

theorem kind_null : ∀ j, typeOk (lit "null") j = true → j.kind = .null := by intro j h; cases j <;> first | rfl | exact Bool.noConfusion (show false = true from h)
theorem kind_bool : ∀ j, typeOk (lit "boolean") j = true → j.kind = .bool := by intro j h; cases j <;> first | rfl | exact Bool.noConfusion (show false = true from h)
theorem kind_number : ∀ j, typeOk (lit "number") j = true → j.kind = .num := by intro j h; cases j <;> first | rfl | exact Bool.noConfusion (show false = true from h)
theorem kind_integer : ∀ j, typeOk (lit "integer") j = true → j.kind = .num := by intro j h; cases j <;> first | rfl | exact Bool.noConfusion (show false = true from h)
theorem kind_string : ∀ j, typeOk (lit "string") j = true → j.kind = .str := by intro j h; cases j <;> first | rfl | exact Bool.noConfusion (show false = true from h)
theorem kind_array : ∀ j, typeOk (lit "array") j = true → j.kind = .arr := by intro j h; cases j <;> first | rfl | exact Bool.noConfusion (show false = true from h)
theorem kind_object : ∀ j, typeOk (lit "object") j = true → j.kind = .obj := by intro j h; cases j <;> first | rfl | exact Bool.noConfusion (show false = true from h)

/-- A schema rejects the documents of other kinds. -/
theorem rejects {env : Env} {D : Defs} (hp : ∀ c, PlainName (className env c)) (version : Option Str) (s0 : Schema) {t : Ty} {s : Schema}
    (hd : Desc env D t s) : ∀ doc : Json, doc.kind ∉ t.kinds → Verdict (schemaDoc version D s0) s.json doc false := by
  induction hd with
  | prim p =>
    intro doc h
    rw [Ty.kinds] at h
    cases p with
    | null => exact rejects_type _ _ _ _ kind_null rfl doc h
    | bool => exact rejects_type _ _ _ _ kind_bool rfl doc h
    | int t =>
      rw [primSchema]
      split
      · exact rejects_type _ _ _ _ kind_integer rfl doc h
      · exact rejects_type _ _ _ _ kind_integer rfl doc h
    | flt t => exact rejects_type _ _ _ _ kind_number rfl doc h
    | enumInt t => exact rejects_type _ _ _ _ kind_object rfl doc h
    | _ => exact rejects_type _ _ _ _ kind_string rfl doc h
  | vec t s _ _ => intro doc h; exact rejects_type _ _ _ _ kind_array rfl doc h
  | arr n t s _ _ => intro doc h; exact rejects_type _ _ _ _ kind_array rfl doc h
  | set t s _ _ => intro doc h; exact rejects_type _ _ _ _ kind_array rfl doc h
  | dict t s _ _ => intro doc h; exact rejects_type _ _ _ _ kind_array rfl doc h
  | map o t s _ _ => intro doc h; exact rejects_type _ _ _ _ kind_object rfl doc h
  | tuple ts ss _ _ _ => intro doc h; exact rejects_type _ _ _ _ kind_array rfl doc h
  | cls c ps _ _ _ => intro doc h; exact rejects_type _ _ _ _ kind_object rfl doc h
  | variant ts ss hl _ ih =>
    intro doc h
    rw [Ty.kinds, mem_kindsAll] at h
    obtain ⟨n, hn⟩ := verdicts (schemaDoc version D s0) (ss.map fun s => (s.json, doc, false)) (by
      intro p hp
      obtain ⟨s, hs, rfl⟩ := List.mem_map.1 hp
      obtain ⟨i, hi, he⟩ := List.getElem_of_mem hs
      have hi' : i < ts.length := by omega
      exact ih i ts[i] s (by simp [hi']) (by simp [hi, he]) doc fun hk => h ⟨ts[i], by simp, hk⟩)
    refine .step n fun fuel hf => ?_
    rw [Schema.json, Schema.fields, validate]
    apply all3_false
    have : checkOneOf (validate (schemaDoc version D s0) fuel) [(lit "oneOf", Json.arr (Schema.jsons ss))] doc = some false := by
      have h1 : List.lookup (lit "oneOf") [(lit "oneOf", Json.arr (Schema.jsons ss))] = some (.arr (Schema.jsons ss)) := rfl
      rw [checkOneOf, h1, jsons_eq]
      simp only [List.map_map]
      rw [count3_zero]
      · rfl
      · intro x hx
        obtain ⟨s, hs, rfl⟩ := List.mem_map.1 hx
        exact hn fuel hf (s.json, doc, false) (List.mem_map.2 ⟨s, hs, rfl⟩)
    simp [this]
  | ref c s hl _ ih =>
    intro doc h
    obtain ⟨n, hn⟩ := ih doc h
    refine .step n fun fuel hf => ?_
    rw [Schema.json, Schema.fields, validate]
    apply all3_false
    have : checkRef (schemaDoc version D s0) (validate (schemaDoc version D s0) fuel) [(lit "$ref", Json.str (defRef (className env c)))] doc = some false := by
      have h1 : List.lookup (lit "$ref") [(lit "$ref", Json.str (defRef (className env c)))] = some (.str (defRef (className env c))) := rfl
      rw [checkRef, h1]
      simp only [Desc.resolve version s0 hp hl]
      exact hn fuel hf
    simp [this]
  | uptr t s _ ih => intro doc h; exact ih doc (by simpa only [Ty.kinds] using h)
  | sptr t s _ ih => intro doc h; exact ih doc (by simpa only [Ty.kinds] using h)

/-! ## All references are defined -/

/-- All references in a part of the schema document are to definitions. -/
def Refs (D : Defs) (j : Json) : Prop :=
  ∀ kw r, Sub (.obj kw) j → kw.lookup (lit "$ref") = some (.str r) → ∃ name s, r = defRef name ∧ D.lookup name = some s

theorem Refs.leaf {D : Defs} {j : Json} (h : j.kind ≠ .arr ∧ j.kind ≠ .obj) : Refs D j := by
  intro kw r hs
  cases hs with
  | self => simp [Json.kind] at h
  | element => simp [Json.kind] at h
  | member => simp [Json.kind] at h

theorem Refs.arr {D : Defs} {js : List Json} (h : ∀ x ∈ js, Refs D x) : Refs D (.arr js) := by
  intro kw r hs hr
  cases hs with
  | element _ x hx h1 => exact h x hx kw r h1 hr

theorem Refs.obj {D : Defs} {ms : List (Str × Json)} (h : ∀ p ∈ ms, Refs D p.2) (hn : ∀ r, ms.lookup (lit "$ref") ≠ some (.str r)) : Refs D (.obj ms) := by
  intro kw r hs hr
  cases hs with
  | self => exact absurd hr (hn r)
  | member _ k x hx h1 => exact h (k, x) hx kw r h1 hr

theorem entries_mem {D : Defs} {p : Str × Json} (h : p ∈ Schema.entries D) : ∃ q ∈ D, p = (q.1, q.2.json) := by
  induction D with
  | nil => cases h
  | cons q D ih =>
    obtain ⟨k, s⟩ := q
    simp only [Schema.entries, List.mem_cons] at h
    rcases h with rfl | h
    · exact ⟨(k, s), by simp, rfl⟩
    · obtain ⟨q, h1, h2⟩ := ih h
      exact ⟨q, by simp [h1], h2⟩

theorem Refs.entries {D' D : Defs} (h : ∀ q ∈ D', Refs D q.2.json) : Refs D (.obj (Schema.entries D')) := by
  refine .obj ?_ ?_
  · intro p hp
    obtain ⟨q, h1, rfl⟩ := entries_mem hp
    exact h q h1
  · intro r hr
    rw [entries_lookup] at hr
    cases hq : D'.lookup (lit "$ref") <;> simp [hq, Schema.json] at hr

theorem refs_leaves {D : Defs} {ms : List (Str × Json)} (h : ∀ p ∈ ms, p.2.kind ≠ .arr ∧ p.2.kind ≠ .obj) (hn : ∀ r, ms.lookup (lit "$ref") ≠ some (.str r)) :
    Refs D (.obj ms) := .obj (fun p hp => .leaf (h p hp)) hn

/-- All references of a schema are to definitions. -/
theorem Desc.refs {env : Env} {D : Defs} {t : Ty} {s : Schema} (hd : Desc env D t s) : Refs D s.json := by
  have size : ∀ (s : Schema) (u : Bool) (n : Option Nat), Refs D s.json → Refs D (Schema.items s u n).json := by
    intro s u n hs
    refine .obj ?_ ?_
    · intro p hp
      cases u <;> cases n <;> simp [Schema.fields, optField] at hp
      · rcases hp with rfl | rfl
        · exact .leaf (by simp [Json.kind])
        · exact hs
      · rcases hp with rfl | rfl | rfl | rfl <;> first | exact hs | exact .leaf (by simp [Json.kind])
      · rcases hp with rfl | rfl | rfl <;> first | exact hs | exact .leaf (by simp [Json.kind])
      · rcases hp with rfl | rfl | rfl | rfl | rfl <;> first | exact hs | exact .leaf (by simp [Json.kind])
    · cases u <;> cases n <;> exact fun r hr => nomatch hr
  induction hd with
  | prim p =>
    cases p with
    | int t =>
      rw [primSchema]
      split <;> exact refs_leaves (by simp [Schema.fields, Json.kind]) (fun r hr => nomatch hr)
    | enumInt t =>
      refine .obj ?_ (fun r hr => nomatch hr)
      intro p hp
      simp only [primSchema, Schema.fields, List.mem_cons, List.not_mem_nil, or_false] at hp
      rcases hp with rfl | rfl
      · exact .leaf (by simp [Json.kind])
      · exact .arr (by simp)
    | enumStr t =>
      refine .obj ?_ (fun r hr => nomatch hr)
      intro p hp
      simp only [primSchema, Schema.fields, List.mem_cons, List.not_mem_nil, or_false] at hp
      rcases hp with rfl | rfl
      · exact .leaf (by simp [Json.kind])
      · exact .arr (by simp)
    | _ => exact refs_leaves (by simp [primSchema, Schema.fields, optField, Json.kind]) (fun r hr => nomatch hr)
  | vec t s _ ih => exact size _ _ _ ih
  | arr n t s _ ih => exact size _ _ _ ih
  | set t s _ ih => exact size _ _ _ ih
  | dict t s _ ih => exact size _ _ _ ih
  | map o t s _ ih =>
    refine .obj ?_ (fun r hr => nomatch hr)
    intro p hp
    simp only [Schema.fields, List.mem_cons, List.not_mem_nil, or_false] at hp
    rcases hp with rfl | rfl
    · exact .leaf (by simp [Json.kind])
    · exact ih
  | tuple ts ss hl _ ih =>
    refine .obj ?_ (fun r hr => nomatch hr)
    intro p hp
    simp only [Schema.fields, List.mem_cons, List.not_mem_nil, or_false] at hp
    rcases hp with rfl | rfl | rfl | rfl
    · exact .leaf (by simp [Json.kind])
    · refine .arr ?_
      intro x hx
      rw [jsons_eq] at hx
      obtain ⟨s, hs, rfl⟩ := List.mem_map.1 hx
      obtain ⟨i, hi, he⟩ := List.getElem_of_mem hs
      exact ih i (ts[i]'(by omega)) s (by simp) (by simp [hi, he])
    · exact .leaf (by simp [Json.kind])
    · exact .leaf (by simp [Json.kind])
  | variant ts ss hl _ ih =>
    refine .obj ?_ (fun r hr => nomatch hr)
    intro p hp
    simp only [Schema.fields, List.mem_cons, List.not_mem_nil, or_false] at hp
    subst hp
    refine .arr ?_
    intro x hx
    rw [jsons_eq] at hx
    obtain ⟨s, hs, rfl⟩ := List.mem_map.1 hx
    obtain ⟨i, hi, he⟩ := List.getElem_of_mem hs
    exact ih i (ts[i]'(by omega)) s (by simp) (by simp [hi, he])
  | cls c ps hn _ ih =>
    refine .obj ?_ (fun r hr => nomatch hr)
    intro p hp
    simp only [Schema.fields, List.mem_cons, List.not_mem_nil, or_false] at hp
    rcases hp with rfl | rfl | rfl | rfl
    · exact .leaf (by simp [Json.kind])
    · refine .entries ?_
      intro q hq
      obtain ⟨i, hi, he⟩ := List.getElem_of_mem hq
      have hi' : i < (env.members c).length := by
        have := congrArg List.length hn
        simp at this
        omega
      exact ih i ((env.members c)[i]) q (by simp [hi']) (by simp [hi, he])
    · refine .arr ?_
      intro x hx
      obtain ⟨r, -, rfl⟩ := List.mem_map.1 hx
      exact .leaf (by simp [Json.kind])
    · exact .leaf (by simp [Json.kind])
  | ref c s hl _ _ =>
    intro kw r hs hr
    cases hs with
    | self =>
      have hr' : some (Json.str (defRef (className env c))) = some (.str r) := hr
      simp only [Option.some.injEq, Json.str.injEq] at hr'
      exact ⟨className env c, s, hr'.symm, hl⟩
    | member _ k x hx h1 =>
      simp only [Schema.fields, List.mem_cons, List.not_mem_nil, or_false, Prod.mk.injEq] at hx
      obtain ⟨rfl, rfl⟩ := hx
      cases h1
  | uptr t s _ ih => exact ih
  | sptr t s _ ih => exact ih

end Verif.Core
