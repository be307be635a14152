import Mathlib.Data.List.Forall2
import Verif.SameNumber
import Verif.SchemaExact

/-!
# Validity of documents with numbers written in another way (C121)

`same` (equality of JSON values) and `Meets` (which documents are valid) are the same for documents that differ in the way in which numbers are written.
-/

namespace Verif.Numerals
open Verif.Core Verif.Numeric JsonSchema

/-- The numbers have the same value for a validator. -/
def SameFraction (m n : JsonNum) : Prop := fraction m = fraction n

/-- The documents differ in the way in which numbers are written. -/
abbrev Alike := DocAlike SameFraction

/-- The same for a member. -/
def AlikeField (q q' : Str × Json) : Prop := q.1 = q'.1 ∧ Alike q.2 q'.2

theorem all_forall₂ : ∀ {js js' : List Json}, DocAlikeAll SameFraction js js' → List.Forall₂ Alike js js'
  | _, _, .nil => .nil
  | _, _, .cons _ _ _ _ h hs => .cons h (all_forall₂ hs)

theorem fields_forall₂ : ∀ {ms ms' : List (Str × Json)}, DocAlikeFields SameFraction ms ms' → List.Forall₂ AlikeField ms ms'
  | _, _, .nil => .nil
  | _, _, .cons _ _ _ _ _ h hs => .cons ⟨rfl, h⟩ (fields_forall₂ hs)

theorem lookup_alike {bs bs' : List (Str × Json)} (h : List.Forall₂ AlikeField bs bs') (k : Str) :
    (bs.lookup k = none ∧ bs'.lookup k = none) ∨ ∃ b b', bs.lookup k = some b ∧ bs'.lookup k = some b' ∧ Alike b b' := by
  induction h with
  | nil => exact .inl ⟨rfl, rfl⟩
  | @cons q q' bs bs' h1 _ ih =>
    obtain ⟨a, b⟩ := q
    obtain ⟨a', b'⟩ := q'
    obtain ⟨h1, h2⟩ := h1
    cases h1
    rw [List.lookup_cons, List.lookup_cons]
    by_cases hk : k = a
    · subst hk
      exact .inr ⟨b, b', by simp, by simp, h2⟩
    · simpa only [beq_eq_false_iff_ne.2 hk] using ih

theorem sameAll_alike {as as' : List Json} (ha : List.Forall₂ Alike as as') : ∀ bs bs', List.Forall₂ Alike bs bs' →
    (∀ a ∈ as, ∀ a' b b', Alike a a' → Alike b b' → same a b = same a' b') → sameAll as bs = sameAll as' bs' := by
  induction ha with
  | nil => intro bs bs' hb _; cases hb <;> rfl
  | @cons a a' as as' h1 _ ih =>
    intro bs bs' hb hs
    cases hb with
    | nil => rfl
    | cons h2 hb => rw [sameAll, sameAll, hs a (by simp) _ _ _ h1 h2, ih _ _ hb fun a ha => hs a (by simp [ha])]

theorem sameFields_alike {bs bs' : List (Str × Json)} (hb : List.Forall₂ AlikeField bs bs') {as as' : List (Str × Json)} (ha : List.Forall₂ AlikeField as as')
    (hs : ∀ q ∈ as, ∀ a' b b', Alike q.2 a' → Alike b b' → same q.2 b = same a' b') : sameFields as bs = sameFields as' bs' := by
  induction ha with
  | nil => rfl
  | @cons q q' as as' h1 _ ih =>
    obtain ⟨k, a⟩ := q
    obtain ⟨k', a'⟩ := q'
    obtain ⟨h1, h2⟩ := h1
    cases h1
    rw [sameFields, sameFields, ih fun q hq => hs q (by simp [hq])]
    congr 1
    rcases lookup_alike hb k with ⟨h3, h4⟩ | ⟨b, b', h3, h4, h5⟩
    · simp only [h3, h4]
    · simp only [h3, h4]
      exact hs (k, a) (by simp) _ _ _ h2 h5

theorem same_alike (a a' b b' : Json) (ha : Alike a a') (hb : Alike b b') : same a b = same a' b' := by
  generalize hs : sizeOf a = s
  induction s using Nat.strongRecOn generalizing a a' b b' with
  | _ s ih =>
    subst hs
    cases ha with
    | num m n h =>
      cases hb with
      | num m' n' h' =>
        unfold SameFraction at h h'
        simp only [same, numLe, h, h']
      | _ => simp only [same]
    | arr as as' ha =>
      cases hb with
      | arr bs bs' hb =>
        rw [same, same]
        refine sameAll_alike (all_forall₂ ha) _ _ (all_forall₂ hb) fun a hm a' b b' h1 h2 => ih _ ?_ a a' b b' h1 h2 rfl
        have := List.sizeOf_lt_of_mem hm
        simp only [Json.arr.sizeOf_spec]
        omega
      | _ => simp only [same]
    | obj as as' ha =>
      cases hb with
      | obj bs bs' hb =>
        rw [same, same, (fields_forall₂ ha).length_eq, (fields_forall₂ hb).length_eq]
        congr 1
        refine sameFields_alike (fields_forall₂ hb) (fields_forall₂ ha) fun q hm a' b b' h1 h2 => ih _ ?_ q.2 a' b b' h1 h2 rfl
        have := List.sizeOf_lt_of_mem hm
        obtain ⟨k, x⟩ := q
        simp only [Prod.mk.sizeOf_spec, Json.obj.sizeOf_spec] at this ⊢
        omega
      | _ => simp only [same]
    | _ => cases hb <;> simp only [same]

theorem pairwise_alike {js js' : List Json} (h : List.Forall₂ Alike js js') :
    js.Pairwise (fun a b => same a b = false) ↔ js'.Pairwise (fun a b => same a b = false) := by
  induction h with
  | nil => simp
  | @cons a a' as as' h1 h2 ih =>
    rw [List.pairwise_cons, List.pairwise_cons, ih]
    refine and_congr ?_ Iff.rfl
    clear ih
    induction h2 with
    | nil => simp
    | cons h3 _ ih => rw [List.forall_mem_cons, List.forall_mem_cons, ih, same_alike _ _ _ _ h1 h3]

theorem forall_alike {α : Type} {R : α → α → Prop} {P Q : α → Prop} {js js' : List α} (h : List.Forall₂ R js js') (hP : ∀ x ∈ js, ∀ x', R x x' → (P x ↔ Q x')) :
    (∀ x ∈ js, P x) ↔ ∀ x ∈ js', Q x := by
  induction h with
  | nil => simp
  | cons h1 _ ih => rw [List.forall_mem_cons, List.forall_mem_cons, hP _ (by simp) _ h1, ih fun x hx => hP x (by simp [hx])]

theorem keys_alike {ms ms' : List (Str × Json)} (h : List.Forall₂ AlikeField ms ms') : ms.map (·.1) = ms'.map (·.1) := by
  induction h with
  | nil => rfl
  | cons h _ ih => rw [List.map_cons, List.map_cons, h.1, ih]

theorem leaf_alike (p : Prim) {j j' : Json} (h : Alike j j') : LeafMeets p j ↔ LeafMeets p j' := by
  cases h with
  | num m n h =>
    unfold SameFraction at h
    cases p <;> simp [LeafMeets, WholeNum, h]
  | null => exact Iff.rfl
  | bool => exact Iff.rfl
  | str => exact Iff.rfl
  | arr => cases p <;> simp [LeafMeets]
  | obj => cases p <;> simp [LeafMeets]

theorem meets_alike (env : Env) (j j' : Json) (t : Ty) (h : Alike j j') : Meets env j t ↔ Meets env j' t := by
  induction j, t using Meets.induct generalizing j' with
  | case1 j p => rw [Meets, Meets]; exact leaf_alike p h
  | case2 js t ih =>
    cases h with
    | arr _ js' h => rw [Meets, Meets]; exact forall_alike (all_forall₂ h) fun x hx x' hr => ih x hx x' hr
  | case3 js n t ih =>
    cases h with
    | arr _ js' h =>
      rw [Meets, Meets, (all_forall₂ h).length_eq]
      exact and_congr Iff.rfl (forall_alike (all_forall₂ h) fun x hx x' hr => ih x hx x' hr)
  | case4 js t ih =>
    cases h with
    | arr _ js' h =>
      rw [Meets, Meets]
      exact and_congr (pairwise_alike (all_forall₂ h)) (forall_alike (all_forall₂ h) fun x hx x' hr => ih x hx x' hr)
  | case5 ms o t ih =>
    cases h with
    | obj _ ms' h => rw [Meets, Meets]; exact forall_alike (fields_forall₂ h) fun q hq q' hr => ih q hq q'.2 hr.2
  | case6 js t ih =>
    cases h with
    | arr _ js' h => rw [Meets, Meets]; exact forall_alike (all_forall₂ h) fun x hx x' hr => ih x hx x' hr
  | case7 js ts ih =>
    cases h with
    | arr _ js' h =>
      have h := all_forall₂ h
      have hl := h.length_eq
      rw [Meets, Meets]
      refine and_congr (by rw [hl]) ⟨fun hm i h1 h2 => ?_, fun hm i h1 h2 => ?_⟩
      · exact (ih i (by omega) h2 _ (h.get (by omega) h1)).1 (hm i (by omega) h2)
      · exact (ih i (by omega) h2 _ (h.get (by omega) (by omega))).2 (hm i (by omega) h2)
  | case8 j ts ih1 =>
    rw [Meets, Meets]
    exact exists₂_congr fun i hi => and_congr (ih1 i hi _ h) (forall₃_congr fun k hk _ => not_congr (ih1 k hk _ h))
  | case9 ms c ih =>
    cases h with
    | obj _ ms' h =>
      rw [Meets, Meets, keys_alike (fields_forall₂ h)]
      refine and_congr (forall_alike (fields_forall₂ h) fun q hq q' hr => ?_) Iff.rfl
      rw [hr.1]
      exact exists_congr fun m => and_congr Iff.rfl (ih q hq m q'.2 hr.2)
  | case10 j t ih => rw [Meets, Meets]; exact ih _ h
  | case11 j t ih => rw [Meets, Meets]; exact ih _ h
  | case12 j t => cases h <;> cases t <;> simp_all [Meets]

mutual
/-- A weaker relation of numbers. -/
theorem alike_mono {N M : JsonNum → JsonNum → Prop} (hNM : ∀ m n, N m n → M m n) : ∀ {j j' : Json}, DocAlike N j j' → DocAlike M j j'
  | _, _, .null => .null
  | _, _, .bool b => .bool b
  | _, _, .num m n h => .num m n (hNM m n h)
  | _, _, .str s => .str s
  | _, _, .arr js js' h => .arr js js' (alikeAll_mono hNM h)
  | _, _, .obj ms ms' h => .obj ms ms' (alikeFields_mono hNM h)

/-- The same for elements. -/
theorem alikeAll_mono {N M : JsonNum → JsonNum → Prop} (hNM : ∀ m n, N m n → M m n) : ∀ {js js' : List Json}, DocAlikeAll N js js' → DocAlikeAll M js js'
  | _, _, .nil => .nil
  | _, _, .cons j j' js js' h hs => .cons j j' js js' (alike_mono hNM h) (alikeAll_mono hNM hs)

/-- The same for members. -/
theorem alikeFields_mono {N M : JsonNum → JsonNum → Prop} (hNM : ∀ m n, N m n → M m n) : ∀ {ms ms' : List (Str × Json)}, DocAlikeFields N ms ms' → DocAlikeFields M ms ms'
  | _, _, .nil => .nil
  | _, _, .cons k j j' ms ms' h hs => .cons k j j' ms ms' (alike_mono hNM h) (alikeFields_mono hNM hs)
end

end Verif.Numerals
