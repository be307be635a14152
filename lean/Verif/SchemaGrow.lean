import Verif.SchemaExact
import Verif.RoundTrip

/-!
# Documents that stay valid when types change

`Loosens` (specification): changes of types, classes included, under which a valid document stays valid.
-/

namespace Verif.Core
open Verif.Numeric Verif.EnumConv JsonSchema

/-- A type without components is replaced by one with more valid values. -/
inductive LeafLoosens : Prim → Prim → Prop
  | same (p : Prim) : LeafLoosens p p
  | int (a b : IntTy) : b.min ≤ a.min → a.max ≤ b.max → LeafLoosens (.int a) (.int b)
  | real (a : IntTy) (f : FltTy) : LeafLoosens (.int a) (.flt f)
  | flt (f g : FltTy) : LeafLoosens (.flt f) (.flt g)
  /-- texts of all kinds: a schema does not assert formats -/
  | text (p q : Prim) : p ∈ [Prim.str, .bytes, .time, .date] → q ∈ [Prim.str, .bytes, .time, .date] → LeafLoosens p q

/-- A type is replaced by another one; `R` tells which classes are replaced by which. -/
inductive Loosens (R : Nat → Nat → Prop) : Ty → Ty → Prop
  | prim (p p' : Prim) : LeafLoosens p p' → Loosens R (.prim p) (.prim p')
  | vec (t t' : Ty) : Loosens R t t' → Loosens R (.vec t) (.vec t')
  | arr (n : Nat) (t t' : Ty) : Loosens R t t' → Loosens R (.arr n t) (.arr n t')
  | arrVec (n : Nat) (t t' : Ty) : Loosens R t t' → Loosens R (.arr n t) (.vec t')
  | set (t t' : Ty) : Loosens R t t' → Loosens R (.set t) (.set t')
  | setVec (t t' : Ty) : Loosens R t t' → Loosens R (.set t) (.vec t')
  | map (o o' : Bool) (t t' : Ty) : Loosens R t t' → Loosens R (.map o t) (.map o' t')
  | dict (t t' : Ty) : Loosens R t t' → Loosens R (.dict t) (.dict t')
  /-- the pairs of a dictionary are arrays of two elements -/
  | dictVec (t t' : Ty) : Loosens R (.tuple [.prim .str, t]) t' → Loosens R (.dict t) (.vec t')
  | tuple (ts ts' : List Ty) : ts.length = ts'.length → (∀ (i : Nat) t t', ts[i]? = some t → ts'[i]? = some t' → Loosens R t t') →
      Loosens R (.tuple ts) (.tuple ts')
  | tupleVec (ts : List Ty) (t' : Ty) : (∀ t, t ∈ ts → Loosens R t t') → Loosens R (.tuple ts) (.vec t')
  /-- alternatives that are written as different kinds of JSON values -/
  | toVariant (t t' : Ty) (ts' : List Ty) : (ts'.Pairwise fun t t' => ∀ k ∈ t.kinds, k ∉ t'.kinds) → t' ∈ ts' → Loosens R t t' → Loosens R t (.variant ts')
  /-- all alternatives become the same type -/
  | ofVariant (ts : List Ty) (t' : Ty) : (∀ t, t ∈ ts → Loosens R t t') → Loosens R (.variant ts) t'
  | cls (c c' : Nat) : R c c' → Loosens R (.cls c) (.cls c')
  | toPtr (t t' : Ty) : Loosens R t t' → Loosens R t (.uptr t')
  | ofPtr (t t' : Ty) : Loosens R t t' → Loosens R (.uptr t) t'
  | toShared (t t' : Ty) : Loosens R t t' → Loosens R t (.sptr t')
  | ofShared (t t' : Ty) : Loosens R t t' → Loosens R (.sptr t) t'

/-- The new class has all members of the old one, in any order, with loosened types; its other members are optional, and
members that were optional stay so. -/
def LoosensClasses (env env' : Env) (R : Nat → Nat → Prop) : Prop :=
  ∀ c c', R c c' → (∀ m ∈ env.members c, ∃ m' ∈ env'.members c', m'.name = m.name ∧ Loosens R m.ty m'.ty) ∧
    ∀ m' ∈ env'.members c', m'.kind ≠ .optional → ∃ m ∈ env.members c, m.name = m'.name ∧ m.kind ≠ .optional

/-! ## Proof -/

theorem find_named {ms : List Member} (h : (ms.map (·.name)).Nodup) {m : Member} (hm : m ∈ ms) : ms.find? (fun m' => m'.name == m.name) = some m := by
  induction ms with
  | nil => cases hm
  | cons a ms ih =>
    simp only [List.map_cons, List.nodup_cons] at h
    rw [List.find?_cons]
    rcases List.mem_cons.1 hm with rfl | hm
    · simp
    · have : (a.name == m.name) = false := by
        simp only [beq_eq_false_iff_ne, ne_eq]
        exact fun e => h.1 (e ▸ List.mem_map.2 ⟨m, hm, rfl⟩)
      rw [this]
      exact ih h.2 hm

theorem meets_vec (env : Env) (js : List Json) (t : Ty) : Meets env (.arr js) (.vec t) ↔ ∀ x ∈ js, Meets env x t := by rw [Meets]

theorem meets_arr (env : Env) (js : List Json) (n : Nat) (t : Ty) : Meets env (.arr js) (.arr n t) ↔ js.length = n ∧ ∀ x ∈ js, Meets env x t := by rw [Meets]

theorem meets_set (env : Env) (js : List Json) (t : Ty) :
    Meets env (.arr js) (.set t) ↔ js.Pairwise (fun a b => same a b = false) ∧ ∀ x ∈ js, Meets env x t := by rw [Meets]

theorem meets_dict (env : Env) (js : List Json) (t : Ty) : Meets env (.arr js) (.dict t) ↔ ∀ x ∈ js, Meets env x (.tuple [.prim .str, t]) := by rw [Meets]

theorem meets_tuple (env : Env) (js : List Json) (ts : List Ty) : Meets env (.arr js) (.tuple ts) ↔
    js.length = ts.length ∧ ∀ (i : Nat) (h : i < js.length) (h' : i < ts.length), Meets env js[i] ts[i] := by rw [Meets]

theorem leafMeets_kind (p : Prim) (j : Json) (h : LeafMeets p j) : j.kind ∈ p.kinds := by
  cases p with
  | null => cases h; simp [Json.kind, Prim.kinds]
  | int t => obtain ⟨x, v, rfl, -⟩ := h; simp [Json.kind, Prim.kinds]
  | enumInt t | enumStr t => exact h.elim
  | _ => obtain ⟨x, rfl⟩ := h; simp [Json.kind, Prim.kinds]

theorem meets_kind (env : Env) : ∀ (t : Ty) (j : Json), Meets env j t → j.kind ∈ t.kinds
  | .prim p, j, h => by rw [Meets] at h; rw [Ty.kinds]; exact leafMeets_kind p j h
  | .variant ts, j, h => by
    rw [Meets] at h
    obtain ⟨i, hi, h1, -⟩ := h
    rw [Ty.kinds, mem_kindsAll]
    exact ⟨ts[i], List.getElem_mem hi, meets_kind env ts[i] j h1⟩
  | .uptr t, j, h => by rw [Ty.kinds]; exact meets_kind env t j (by cases j <;> rwa [Meets] at h)
  | .sptr t, j, h => by rw [Ty.kinds]; exact meets_kind env t j (by cases j <;> rwa [Meets] at h)
  | .vec _, j, h | .arr _ _, j, h | .set _, j, h | .map _ _, j, h | .dict _, j, h | .tuple _, j, h | .cls _, j, h => by
    cases j <;> simp [Meets] at h <;> simp [Ty.kinds, Json.kind]
termination_by t => sizeOf t
decreasing_by all_goals first | (have := List.sizeOf_lt_of_mem (List.getElem_mem hi); simp; omega) | simp

theorem leafMeets_loosens {p p' : Prim} (hl : LeafLoosens p p') (j : Json) (h : LeafMeets p j) : LeafMeets p' j := by
  cases hl with
  | same => exact h
  | int a b h1 h2 =>
    obtain ⟨x, v, rfl, hw, h3, h4⟩ := h
    exact ⟨x, v, rfl, hw, by omega, by omega⟩
  | real a f => obtain ⟨x, v, rfl, -⟩ := h; exact ⟨x, rfl⟩
  | flt f g => exact h
  | text _ _ h1 h2 =>
    have : ∃ s, j = .str s := by
      simp only [List.mem_cons, List.not_mem_nil, or_false] at h1
      rcases h1 with rfl | rfl | rfl | rfl <;> exact h
    simp only [List.mem_cons, List.not_mem_nil, or_false] at h2
    rcases h2 with rfl | rfl | rfl | rfl <;> exact this

theorem meets_one (env : Env) (j : Json) (ts : List Ty) (hpw : ts.Pairwise fun t t' => ∀ k ∈ t.kinds, k ∉ t'.kinds) (t : Ty) (ht : t ∈ ts) (h : Meets env j t) :
    Meets env j (.variant ts) := by
  obtain ⟨i, hi, rfl⟩ := List.getElem_of_mem ht
  rw [Meets]
  refine ⟨i, hi, h, fun k hk hne hm => ?_⟩
  have h1 := meets_kind env _ j h
  have h2 := meets_kind env _ j hm
  have hpw := List.pairwise_iff_getElem.1 hpw
  rcases Nat.lt_or_gt_of_ne hne with hlt | hlt
  · exact hpw k i hk hi hlt _ h2 h1
  · exact hpw i k hi hk hlt _ h1 h2

/-- A document that meets a type meets the loosened type. -/
theorem meets_loosens {env env' : Env} {R : Nat → Nat → Prop} (hR : LoosensClasses env env' R) (hdist : env'.DistinctNames) :
    ∀ n doc, sizeOf doc ≤ n → ∀ t t', Loosens R t t' → Meets env doc t → Meets env' doc t' := by
  intro n
  induction n with
  | zero => intro doc hn; cases doc <;> simp at hn
  | succ n ihn =>
    intro doc hn t t' hl
    have hel : ∀ js, doc = .arr js → ∀ x ∈ js, ∀ t t', Loosens R t t' → Meets env x t → Meets env' x t' := by
      rintro js rfl x hx
      have := List.sizeOf_lt_of_mem hx
      simp at hn
      exact ihn x (by omega)
    have hfl : ∀ ms, doc = .obj ms → ∀ q ∈ ms, ∀ t t', Loosens R t t' → Meets env q.2 t → Meets env' q.2 t' := by
      rintro ms rfl q hq
      have := List.sizeOf_lt_of_mem hq
      have : sizeOf q.2 < sizeOf q := by cases q; simp; omega
      simp at hn
      exact ihn q.2 (by omega)
    induction hl with
    | prim p p' h => rw [Meets, Meets]; exact leafMeets_loosens h doc
    | vec t t' hl _ =>
      intro h
      cases doc with
      | arr js => rw [meets_vec] at h; rw [meets_vec]; exact fun x hx => hel js rfl x hx _ _ hl (h x hx)
      | _ => simp [Meets] at h
    | arr k t t' hl _ =>
      intro h
      cases doc with
      | arr js => rw [meets_arr] at h; rw [meets_arr]; exact ⟨h.1, fun x hx => hel js rfl x hx _ _ hl (h.2 x hx)⟩
      | _ => simp [Meets] at h
    | arrVec k t t' hl _ =>
      intro h
      cases doc with
      | arr js => rw [meets_arr] at h; rw [meets_vec]; exact fun x hx => hel js rfl x hx _ _ hl (h.2 x hx)
      | _ => simp [Meets] at h
    | set t t' hl _ =>
      intro h
      cases doc with
      | arr js => rw [meets_set] at h; rw [meets_set]; exact ⟨h.1, fun x hx => hel js rfl x hx _ _ hl (h.2 x hx)⟩
      | _ => simp [Meets] at h
    | setVec t t' hl _ =>
      intro h
      cases doc with
      | arr js => rw [meets_set] at h; rw [meets_vec]; exact fun x hx => hel js rfl x hx _ _ hl (h.2 x hx)
      | _ => simp [Meets] at h
    | map o o' t t' hl _ =>
      intro h
      cases doc with
      | obj ms => rw [Meets] at h ⊢; exact fun q hq => hfl ms rfl q hq _ _ hl (h q hq)
      | _ => simp [Meets] at h
    | dict t t' hl _ =>
      intro h
      cases doc with
      | arr js =>
        rw [meets_dict] at h; rw [meets_dict]
        refine fun x hx => hel js rfl x hx (.tuple [.prim .str, t]) _ (.tuple _ _ rfl fun i a b ha hb => ?_) (h x hx)
        match i with
        | 0 => cases ha; cases hb; exact .prim _ _ (.same _)
        | 1 => cases ha; cases hb; exact hl
        | _ + 2 => cases ha
      | _ => simp [Meets] at h
    | dictVec t t' hl _ =>
      intro h
      cases doc with
      | arr js => rw [meets_dict] at h; rw [meets_vec]; exact fun x hx => hel js rfl x hx _ _ hl (h x hx)
      | _ => simp [Meets] at h
    | tuple ts ts' hlen hl _ =>
      intro h
      cases doc with
      | arr js =>
        rw [meets_tuple] at h; rw [meets_tuple]
        refine ⟨by omega, fun i hi hi' => ?_⟩
        have hi'' : i < ts.length := by omega
        exact hel js rfl _ (List.getElem_mem hi) _ _ (hl i _ _ (List.getElem?_eq_getElem hi'') (List.getElem?_eq_getElem hi')) (h.2 i hi hi'')
      | _ => simp [Meets] at h
    | tupleVec ts t' hl _ =>
      intro h
      cases doc with
      | arr js =>
        rw [meets_tuple] at h; rw [meets_vec]
        intro x hx
        obtain ⟨i, hi, rfl⟩ := List.getElem_of_mem hx
        have hi' : i < ts.length := by omega
        exact hel js rfl _ hx _ _ (hl _ (List.getElem_mem hi')) (h.2 i hi hi')
      | _ => simp [Meets] at h
    | toVariant t t' ts' hpw ht' _ ih => exact fun h => meets_one env' doc ts' hpw t' ht' (ih h)
    | ofVariant ts t' _ ih =>
      intro h
      rw [Meets] at h
      obtain ⟨i, hi, h1, -⟩ := h
      exact ih _ (List.getElem_mem hi) h1
    | cls c c' hc =>
      intro h
      cases doc with
      | obj ms =>
        rw [Meets] at h ⊢
        obtain ⟨g1, g2⟩ := hR c c' hc
        refine ⟨fun q hq => ?_, fun m' hm' hk => ?_⟩
        · obtain ⟨m, hm, hv⟩ := h.1 q hq
          have hname : m.name = q.1 := by simpa using List.find?_some hm
          obtain ⟨m', hm', hn', hl⟩ := g1 m (List.mem_of_find?_eq_some hm)
          refine ⟨m', ?_, hfl ms rfl q hq _ _ hl hv⟩
          rw [← hname, ← hn']
          exact find_named (hdist c') hm'
        · obtain ⟨m, hm, hn', hk'⟩ := g2 m' hm' hk
          rw [← hn']
          exact h.2 m hm hk'
      | _ => simp [Meets] at h
    | toPtr t t' _ ih | toShared t t' _ ih => exact fun h => by have := ih h; cases doc <;> rwa [Meets]
    | ofPtr t t' _ ih | ofShared t t' _ ih => exact fun h => ih (by cases doc <;> rwa [Meets] at h)

end Verif.Core
