import Verif.SchemaTerm
import Verif.SchemaLemmas
import Verif.GenWork
import Verif.Cost
import Verif.Containers

/-!
# The size of generated schemas
-/

namespace Verif.Core
open Verif.Numeric Verif.EnumConv JsonSchema

/-! ## Specification -/

/-- The type is not a class, nor a pointer to one. -/
def offClass : Ty → Bool
  | .cls _ => false
  | .uptr t | .sptr t => offClass t
  | _ => true

mutual
/-- There is no pointer to a class in the type as it is spelled. -/
def byValue : Ty → Bool
  | .prim _ | .cls _ => true
  | .vec t | .arr _ t | .set t | .map _ t | .dict t => byValue t
  | .uptr t | .sptr t => offClass t && byValue t
  | .tuple ts | .variant ts => byValueAll ts

/-- The same for several types. -/
def byValueAll : List Ty → Bool
  | [] => true
  | t :: ts => byValue t && byValueAll ts
end

/-! ## Counting values -/

theorem nodes_obj (ms : List (Str × Json)) : nodes (.obj ms) = 1 + nodesFields ms := by rw [nodes]

theorem nodesFields_append (a b : List (Str × Json)) : nodesFields (a ++ b) = nodesFields a + nodesFields b := by
  induction a with
  | nil => simp [nodesFields]
  | cons p a ih => obtain ⟨k, j⟩ := p; simp only [List.cons_append, nodesFields, ih]; omega

theorem nodesAll_strs (l : List Str) : nodesAll (l.map .str) = l.length := by
  induction l with
  | nil => rfl
  | cons a l ih => simp only [List.map_cons, nodesAll, ih, List.length_cons]; simp only [nodes]; omega

theorem nodes_optField (k : Str) (j : Option Json) (n : Nat) (h : ∀ x, j = some x → nodes x ≤ n) : nodesFields (optField k j) ≤ n := by
  cases j with
  | none => exact Nat.zero_le _
  | some x => simpa [optField, nodesFields] using h x rfl

/-- The values in the document for a schema. -/
abbrev snodes (s : Schema) : Nat := nodes s.json

theorem snodes_pos (s : Schema) : 1 ≤ snodes s := by rw [snodes, Schema.json, nodes]; omega

theorem snodes_prim (p : Prim) : snodes (primSchema p) ≤ 4 := by
  cases p with
  | int t => rw [primSchema]; split <;> simp [snodes, Schema.json, nodes, Schema.fields, nodesFields]
  | _ => simp [primSchema, snodes, Schema.json, nodes, Schema.fields, nodesFields, nodesAll, optField]

theorem snodes_items (s : Schema) (u : Bool) (n : Option Nat) (h : u = false ∨ n = none) : snodes (.items s u n) ≤ 4 + snodes s := by
  rw [snodes, Schema.json, nodes, Schema.fields, snodes, Schema.json]
  rcases h with rfl | rfl
  · cases n <;> simp [nodesFields, optField, nodes] <;> omega
  · cases u <;> simp [nodesFields, optField, nodes] <;> omega

theorem snodes_mapping (s : Schema) : snodes (.mapping s) ≤ 2 + snodes s := by
  rw [snodes, Schema.json, nodes, Schema.fields, snodes, Schema.json]
  simp [nodesFields, nodes]; omega

theorem snodes_ref (r : Str) : snodes (.ref r) = 2 := by
  rw [snodes, Schema.json, nodes, Schema.fields]
  simp [nodesFields, nodes]

/-- The values in the documents for several schemas. -/
def snodesAll : List Schema → Nat
  | [] => 0
  | s :: ss => snodes s + snodesAll ss

theorem nodesAll_jsons (ss : List Schema) : nodesAll (Schema.jsons ss) = snodesAll ss := by
  induction ss with
  | nil => rfl
  | cons s ss ih => rw [Schema.jsons, nodesAll, ih]; rfl

theorem nodesFields_entries (ps : List (Str × Schema)) : nodesFields (Schema.entries ps) = snodesAll (ps.map (·.2)) := by
  induction ps with
  | nil => rfl
  | cons p ps ih => obtain ⟨k, s⟩ := p; rw [Schema.entries, nodesFields, ih]; rfl

theorem snodes_tuple (ss : List Schema) : snodes (.tuple ss) = 5 + snodesAll ss := by
  rw [snodes, Schema.json, nodes, Schema.fields]
  simp [nodesFields, nodes, nodesAll_jsons]; omega

theorem snodes_oneOf (ss : List Schema) : snodes (.oneOf ss) = 2 + snodesAll ss := by
  rw [snodes, Schema.json, nodes, Schema.fields]
  simp [nodesFields, nodes, nodesAll_jsons]; omega

theorem snodes_object (ps : List (Str × Schema)) (rs : List Str) : snodes (.object ps rs) = 5 + snodesAll (ps.map (·.2)) + rs.length := by
  rw [snodes, Schema.json, nodes, Schema.fields]
  simp [nodesFields, nodes, nodesFields_entries, nodesAll_strs]; omega

theorem nodes_schemaDoc (version : Option Str) (D : Defs) (s : Schema) : nodes (schemaDoc version D s) ≤ snodes s + snodesAll (D.map (·.2)) + 2 := by
  rw [schemaDoc, nodes, nodesFields_append, nodesFields_append, snodes, Schema.json, nodes]
  have h1 : nodesFields (optField (lit "$schema") (version.map .str)) ≤ 1 := nodes_optField _ _ _ fun x hx => by
    obtain ⟨_, _, rfl⟩ := Option.map_eq_some_iff.1 hx
    simp [nodes]
  have h2 : nodesFields (optField (lit "definitions") (if D = [] then none else some (.obj (Schema.entries D)))) ≤ 1 + snodesAll (D.map (·.2)) :=
    nodes_optField _ _ _ fun x hx => by
      split at hx
      · cases hx
      · cases hx
        rw [nodes, nodesFields_entries]
        exact Nat.le_refl _
  omega

theorem snodes_le_doc (version : Option Str) (D : Defs) (s : Schema) : snodes s ≤ nodes (schemaDoc version D s) := by
  rw [schemaDoc, nodes, nodesFields_append, nodesFields_append, snodes, Schema.json, nodes]
  omega

/-! ## A constant for each call -/

/-- The values in the definitions. -/
abbrev defNodes (d : Defs) : Nat := snodesAll (d.map (·.2))

theorem defNodes_assign (k : Str) (s : Schema) (d : Defs) : defNodes (mapAssign k s d) ≤ snodes s + defNodes d := by
  induction d with
  | nil => exact Nat.le_refl _
  | cons p d ih =>
    obtain ⟨k', s'⟩ := p
    rw [mapAssign]
    simp only [defNodes] at ih ⊢
    split
    · simp only [List.map_cons, snodesAll]; omega
    · split
      · simp only [List.map_cons, snodesAll]; omega
      · simp only [List.map_cons, snodesAll]; omega

theorem defNodes_insert (k : Str) (s : Schema) (d : Defs) : defNodes (d.insert k s) ≤ snodes s + defNodes d := by
  rw [Defs.insert]
  split
  · omega
  · exact defNodes_assign k s d

/-- What a call costs, as an element. -/
def Paid (d : Defs) (r : Schema × Defs) (l : List Ty) : Prop := snodes r.1 + 2 + defNodes r.2 ≤ 9 * l.length + defNodes d

theorem makeLog_paid {env : Env} {g : Ty → Defs → GenLog Schema} (hg : ∀ t d r l, g t d = some (r, l) → snodes r.1 + 4 + defNodes r.2 ≤ 9 * l.length + defNodes d)
    (t : Ty) (d : Defs) (r : Schema × Defs) (l : List Ty) (h : makeLog env g t d = some (r, l)) : Paid d r l := by
  cases t with
  | cls c =>
    simp only [makeLog, Option.map_eq_some_iff] at h
    obtain ⟨⟨⟨s, d'⟩, l'⟩, h1, h2⟩ := h
    cases h2
    have h3 := hg _ _ _ _ h1
    have h4 := defNodes_insert (env.classes c).name s d'
    simp only [Paid, snodes_ref] at h3 ⊢
    omega
  | _ => have := hg _ _ _ _ h; rw [Paid]; omega

theorem makesLog_paid {mk : Ty → Defs → GenLog Schema} (hg : ∀ t d r l, mk t d = some (r, l) → Paid d r l) :
    ∀ (ts : List Ty) (d : Defs) (r : List Schema × Defs) (l : List Ty), makesLog mk ts d = some (r, l) → snodesAll r.1 + defNodes r.2 ≤ 9 * l.length + defNodes d := by
  intro ts
  induction ts with
  | nil => intro d r l h; cases h; simp [snodesAll]
  | cons t ts ih =>
    intro d r l h
    simp only [makesLog, Option.bind_eq_some_iff, Option.map_eq_some_iff] at h
    obtain ⟨⟨⟨s, d'⟩, l1⟩, h1, ⟨⟨ss, d''⟩, l2⟩, h2, h3⟩ := h
    cases h3
    have e1 := hg _ _ _ _ h1
    have e2 := ih _ _ _ h2
    simp only [Paid, snodesAll, List.length_append] at e1 e2 ⊢
    omega

theorem visitLog_paid {mk : Ty → Defs → GenLog Schema} (hg : ∀ t d r l, mk t d = some (r, l) → Paid d r l) :
    ∀ (ms : List Member) (d : Defs) (r : (List (Str × Schema) × List Str) × Defs) (l : List Ty), visitLog mk ms d = some (r, l) →
      snodesAll (r.1.1.map (·.2)) + r.1.2.length + defNodes r.2 ≤ 9 * l.length + defNodes d := by
  intro ms
  induction ms with
  | nil => intro d r l h; cases h; simp [snodesAll]
  | cons m ms ih =>
    intro d r l h
    simp only [visitLog, Option.bind_eq_some_iff, Option.map_eq_some_iff] at h
    obtain ⟨⟨⟨s, d'⟩, l1⟩, h1, ⟨⟨⟨ps, rs⟩, d''⟩, l2⟩, h2, h3⟩ := h
    cases h3
    have e1 := hg _ _ _ _ h1
    have e2 := ih _ _ _ h2
    simp only [Paid, snodesAll, List.length_append, List.map_cons] at e1 e2 ⊢
    split <;> (try simp only [List.length_cons]) <;> omega

theorem genLog_paid (env : Env) : ∀ fuel t d r l, genLog env fuel t d = some (r, l) → snodes r.1 + 4 + defNodes r.2 ≤ 9 * l.length + defNodes d := by
  intro fuel
  induction fuel with
  | zero => intro t d r l h; cases h
  | succ fuel ih =>
    intro t d r l h
    have hmk := makeLog_paid (env := env) ih
    cases t with
    | prim p =>
      cases h
      have := snodes_prim p
      simp only [List.length_cons, List.length_nil]
      omega
    | vec t | set t | arr n t | dict t =>
      simp only [genLog, Option.map_eq_some_iff] at h
      obtain ⟨⟨⟨s, d'⟩, l'⟩, h1, h2⟩ := h
      cases h2
      have e := hmk _ _ _ _ h1
      simp only [Paid, List.length_cons] at e ⊢
      refine Nat.le_trans (Nat.add_le_add_right (Nat.add_le_add_right (snodes_items s _ _ (by simp)) 4) _) ?_
      omega
    | map o t =>
      simp only [genLog, Option.map_eq_some_iff] at h
      obtain ⟨⟨⟨s, d'⟩, l'⟩, h1, h2⟩ := h
      cases h2
      have e := hmk _ _ _ _ h1
      have := snodes_mapping s
      simp only [Paid, List.length_cons] at e ⊢
      omega
    | tuple ts =>
      simp only [genLog, Option.map_eq_some_iff] at h
      obtain ⟨⟨⟨ss, d'⟩, l'⟩, h1, h2⟩ := h
      cases h2
      have e := makesLog_paid hmk _ _ _ _ h1
      simp only [snodes_tuple, List.length_cons] at e ⊢
      omega
    | variant ts =>
      simp only [genLog, Option.map_eq_some_iff] at h
      obtain ⟨⟨⟨ss, d'⟩, l'⟩, h1, h2⟩ := h
      cases h2
      have e := makesLog_paid hmk _ _ _ _ h1
      simp only [snodes_oneOf, List.length_cons] at e ⊢
      omega
    | cls c =>
      simp only [genLog, Option.map_eq_some_iff] at h
      obtain ⟨⟨⟨⟨ps, rs⟩, d'⟩, l'⟩, h1, h2⟩ := h
      cases h2
      have e := visitLog_paid hmk _ _ _ _ h1
      simp only [snodes_object, List.length_cons] at e ⊢
      omega
    | uptr t | sptr t =>
      simp only [genLog, Option.map_eq_some_iff] at h
      obtain ⟨⟨⟨s, d'⟩, l'⟩, h1, h2⟩ := h
      cases h2
      have e := ih _ _ _ _ h1
      simp only [List.length_cons] at e ⊢
      omega

/-! ## Classes by value -/

/-- Each definition is that of a class in `U`, and as large as its member variables are spelled. -/
def SmallDefs (env : Env) (U : Ty → Prop) (D : Defs) : Prop :=
  KeysAsc D ∧ ∀ q ∈ D, ∃ c, U (.cls c) ∧ className env c = q.1 ∧ snodes q.2 ≤ 6 * (1 + spelledIn env (.cls c))

/-- What the generator may leave. -/
def Small (env : Env) (U : Ty → Prop) (n : Nat) (r : Schema × Defs) : Prop := SmallDefs env U r.2 ∧ snodes r.1 + 1 ≤ 6 * n

theorem offClass_in (env : Env) (t : Ty) (h : offClass t = true) : spelledIn env t = 0 := by
  cases t <;> first | rfl | cases h

theorem makeWith_small {env : Env} {U : Ty → Prop} {g : Ty → Defs → Gen Schema}
    (hg : ∀ t d r, U t → byValue t = true → SmallDefs env U d → g t d = some r → Small env U (spelled t + spelledIn env t) r)
    (t : Ty) (d : Defs) (r : Schema × Defs) (hu : U t) (hb : byValue t = true) (hd : SmallDefs env U d) (h : makeWith env g t d = some r) : Small env U (spelled t) r := by
  cases t with
  | cls c =>
    simp only [makeWith, Option.map_eq_some_iff] at h
    obtain ⟨⟨s, d'⟩, h1, rfl⟩ := h
    obtain ⟨⟨e1, e2⟩, e3⟩ := hg _ _ _ hu hb hd h1
    refine ⟨⟨?_, fun q hq => ?_⟩, by rw [snodes_ref, spelled]; omega⟩
    · show KeysAsc (Defs.insert _ _ _)
      rw [Defs.insert]
      split
      · exact e1
      · exact mapAssign_asc _ _ _ e1
    · simp only [Defs.insert] at hq
      split at hq
      · exact e2 q hq
      · rcases mapAssign_mem hq with rfl | hq
        · refine ⟨c, hu, rfl, ?_⟩
          simp only [spelled] at e3 ⊢
          omega
        · exact e2 q hq
  | _ => exact hg _ _ _ hu hb hd h

theorem makesWith_small {env : Env} {U : Ty → Prop} {mk : Ty → Defs → Gen Schema}
    (hg : ∀ t d r, U t → byValue t = true → SmallDefs env U d → mk t d = some r → Small env U (spelled t) r) :
    ∀ (ts : List Ty) (d : Defs) (r : List Schema × Defs), (∀ t ∈ ts, U t) → byValueAll ts = true → SmallDefs env U d → makesWith mk ts d = some r →
      SmallDefs env U r.2 ∧ snodesAll r.1 ≤ 6 * spelledAll ts := by
  intro ts
  induction ts with
  | nil => intro d r _ _ hd h; cases h; exact ⟨hd, by simp [snodesAll]⟩
  | cons t ts ih =>
    intro d r hu hb hd h
    simp only [makesWith, Option.bind_eq_some_iff, Option.map_eq_some_iff] at h
    obtain ⟨⟨s, d'⟩, h1, ⟨ss, d''⟩, h2, rfl⟩ := h
    simp only [byValueAll, Bool.and_eq_true] at hb
    obtain ⟨e1, e2⟩ := hg _ _ _ (hu t (by simp)) hb.1 hd h1
    obtain ⟨f1, f2⟩ := ih _ _ (fun t ht => hu t (by simp [ht])) hb.2 e1 h2
    refine ⟨f1, ?_⟩
    simp only [snodesAll, spelledAll] at e2 f2 ⊢
    omega

theorem visitWith_small {env : Env} {U : Ty → Prop} {mk : Ty → Defs → Gen Schema}
    (hg : ∀ t d r, U t → byValue t = true → SmallDefs env U d → mk t d = some r → Small env U (spelled t) r) :
    ∀ (ms : List Member) (d : Defs) (r : (List (Str × Schema) × List Str) × Defs), (∀ m ∈ ms, U m.ty ∧ byValue m.ty = true) → SmallDefs env U d →
      visitWith mk ms d = some r → SmallDefs env U r.2 ∧ snodesAll (r.1.1.map (·.2)) + r.1.2.length ≤ 6 * spelledAll (ms.map (·.ty)) := by
  intro ms
  induction ms with
  | nil => intro d r _ hd h; cases h; exact ⟨hd, by simp [snodesAll]⟩
  | cons m ms ih =>
    intro d r hu hd h
    simp only [visitWith, Option.bind_eq_some_iff, Option.map_eq_some_iff] at h
    obtain ⟨⟨s, d'⟩, h1, ⟨⟨ps, rs⟩, d''⟩, h2, rfl⟩ := h
    obtain ⟨e1, e2⟩ := hg _ _ _ (hu m (by simp)).1 (hu m (by simp)).2 hd h1
    obtain ⟨f1, f2⟩ := ih _ _ (fun m hm => hu m (by simp [hm])) e1 h2
    refine ⟨f1, ?_⟩
    simp only [snodesAll, spelledAll, List.map_cons] at e2 f2 ⊢
    split <;> (try simp only [List.length_cons]) <;> omega

theorem gen_small (env : Env) (U : Ty → Prop) (hU : ∀ t, U t → ∀ u ∈ children env t, U u) (hv : ∀ c, U (.cls c) → ∀ m ∈ env.members c, byValue m.ty = true) :
    ∀ fuel t d r, U t → byValue t = true → SmallDefs env U d → gen env fuel t d = some r → Small env U (spelled t + spelledIn env t) r := by
  intro fuel
  induction fuel with
  | zero => intro t d r _ _ _ h; cases h
  | succ fuel ih =>
    intro t d r hu hb hd h
    have hmk := makeWith_small ih
    cases t with
    | prim p =>
      cases h
      have := snodes_prim p
      exact ⟨hd, by simp only [spelled]; omega⟩
    | vec t | set t | arr n t =>
      simp only [gen, Option.map_eq_some_iff] at h
      obtain ⟨⟨s, d'⟩, h1, rfl⟩ := h
      obtain ⟨e1, e2⟩ := hmk t _ _ (hU _ hu t (by simp [children])) (by simpa [byValue] using hb) hd h1
      refine ⟨e1, Nat.le_trans (Nat.add_le_add_right (snodes_items s _ _ (by simp)) 1) ?_⟩
      simp only [spelled] at e2 ⊢
      omega
    | dict t =>
      simp only [gen, Option.map_eq_some_iff] at h
      obtain ⟨⟨s, d'⟩, h1, rfl⟩ := h
      obtain ⟨e1, e2⟩ := hmk _ _ _ (hU _ hu _ (by simp [children])) (by simpa [byValue, byValueAll] using hb) hd h1
      refine ⟨e1, Nat.le_trans (Nat.add_le_add_right (snodes_items s _ _ (by simp)) 1) ?_⟩
      simp only [spelled, spelledAll] at e2 ⊢
      omega
    | map o t =>
      simp only [gen, Option.map_eq_some_iff] at h
      obtain ⟨⟨s, d'⟩, h1, rfl⟩ := h
      obtain ⟨e1, e2⟩ := hmk t _ _ (hU _ hu t (by simp [children])) (by simpa [byValue] using hb) hd h1
      have := snodes_mapping s
      refine ⟨e1, ?_⟩
      simp only [spelled] at e2 ⊢
      omega
    | tuple ts =>
      simp only [gen, Option.map_eq_some_iff] at h
      obtain ⟨⟨ss, d'⟩, h1, rfl⟩ := h
      obtain ⟨e1, e2⟩ := makesWith_small hmk ts _ _ (fun u hm => hU _ hu u (by simpa [children] using hm)) (by simpa [byValue] using hb) hd h1
      refine ⟨e1, ?_⟩
      simp only [snodes_tuple, spelled] at e2 ⊢
      omega
    | variant ts =>
      simp only [gen, Option.map_eq_some_iff] at h
      obtain ⟨⟨ss, d'⟩, h1, rfl⟩ := h
      obtain ⟨e1, e2⟩ := makesWith_small hmk ts _ _ (fun u hm => hU _ hu u (by simpa [children] using hm)) (by simpa [byValue] using hb) hd h1
      refine ⟨e1, ?_⟩
      simp only [snodes_oneOf, spelled] at e2 ⊢
      omega
    | cls c =>
      simp only [gen, Option.map_eq_some_iff] at h
      obtain ⟨⟨⟨ps, rs⟩, d'⟩, h1, rfl⟩ := h
      obtain ⟨e1, e2⟩ := visitWith_small hmk _ _ _ (fun m hm => ⟨hU _ hu _ (List.mem_map.2 ⟨m, hm, rfl⟩), hv c hu m hm⟩) hd h1
      refine ⟨e1, ?_⟩
      simp only [snodes_object, spelled, spelledIn] at e2 ⊢
      omega
    | uptr t | sptr t =>
      simp only [gen] at h
      simp only [byValue, Bool.and_eq_true] at hb
      obtain ⟨e1, e2⟩ := ih t _ _ (hU _ hu t (by simp [children])) hb.2 hd h
      refine ⟨e1, ?_⟩
      rw [offClass_in env t hb.1] at e2
      simp only [spelled] at e2 ⊢
      omega

/-- Classes for the definitions. -/
theorem smallDefs_classes {env : Env} {U : Ty → Prop} : ∀ (D : Defs), (∀ q ∈ D, ∃ c, U (.cls c) ∧ className env c = q.1 ∧ snodes q.2 ≤ 6 * (1 + spelledIn env (.cls c))) →
    ∃ cs : List Nat, (∀ c ∈ cs, U (.cls c)) ∧ cs.map (className env) = D.map (·.1) ∧ defNodes D ≤ 6 * (cs.map fun c => 1 + spelledIn env (.cls c)).sum := by
  intro D
  induction D with
  | nil => intro _; exact ⟨[], by simp, rfl, Nat.le_refl _⟩
  | cons q D ih =>
    intro h
    obtain ⟨c, h1, h2, h3⟩ := h q (by simp)
    obtain ⟨cs, h4, h5, h6⟩ := ih fun q hq => h q (by simp [hq])
    refine ⟨c :: cs, by simpa using ⟨h1, h4⟩, by simp [h2, h5], ?_⟩
    simp only [defNodes, List.map_cons, snodesAll, List.sum_cons] at h6 ⊢
    omega

end Verif.Core
