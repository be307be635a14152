import Verif.ParseMore
import Verif.SchemaExact

/-!
# Validity of documents with members in another order (C38)

`same` (equality of JSON values) and `Meets` (which documents are valid) are the same for documents that differ in the order of members only.
-/

namespace Verif.Core
open JsonSchema

/-- What reordering an object does, key by key. -/
structure Rekeyed (ms ms' : List (Str × Json)) : Prop where
  length : ms.length = ms'.length
  fwd : ∀ q ∈ ms, ∃ x, (q.1, x) ∈ ms' ∧ Reorder q.2 x
  bwd : ∀ q ∈ ms', ∃ x, (q.1, x) ∈ ms ∧ Reorder x q.2
  find : ∀ k x, ms.lookup k = some x → ∃ x', ms'.lookup k = some x' ∧ Reorder x x'

theorem ReorderFields.rekeyed {ms ms' : List (Str × Json)} (h : ReorderFields ms ms') : Rekeyed ms ms' := by
  induction ms generalizing ms' with
  | nil => cases h; exact ⟨rfl, by simp, by simp, by simp⟩
  | cons q ms ih =>
    cases h with
    | cons k j j' _ ms' h1 h2 =>
      obtain ⟨a, b, c, d⟩ := ih h2
      refine ⟨by simp [a], ?_, ?_, ?_⟩
      · intro q hq
        rcases List.mem_cons.1 hq with rfl | hq
        · exact ⟨j', by simp, h1⟩
        · obtain ⟨x, hx, hr⟩ := b q hq
          exact ⟨x, by simp [hx], hr⟩
      · intro q hq
        rcases List.mem_cons.1 hq with rfl | hq
        · exact ⟨j, by simp, h1⟩
        · obtain ⟨x, hx, hr⟩ := c q hq
          exact ⟨x, by simp [hx], hr⟩
      · intro k' x hx
        rw [List.lookup_cons] at hx ⊢
        by_cases hk : k' = k
        · subst hk
          simp only [beq_self_eq_true, Option.some.injEq] at hx ⊢
          subst hx
          exact ⟨j', rfl, h1⟩
        · simp only [beq_eq_false_iff_ne.2 hk] at hx ⊢
          exact d k' x hx

theorem lookup_iff_mem {ms : List (Str × Json)} (hd : (ms.map (·.1)).Nodup) (k : Str) (x : Json) : ms.lookup k = some x ↔ (k, x) ∈ ms := by
  induction ms with
  | nil => simp
  | cons q ms ih =>
    obtain ⟨k', y⟩ := q
    rw [List.map_cons, List.nodup_cons] at hd
    rw [List.lookup_cons]
    by_cases hk : k = k'
    · subst hk
      have : (k, x) ∉ ms := fun h => hd.1 (List.mem_map_of_mem (f := (·.1)) h)
      simp [this, eq_comm]
    · simp [beq_eq_false_iff_ne.2 hk, hk, ih hd.2]

theorem Reorder.of_obj {ms : List (Str × Json)} {j' : Json} (h : Reorder (.obj ms) j') : ∃ ms', j' = .obj ms' ∧ Rekeyed ms ms' := by
  cases h with
  | same => exact ⟨ms, rfl, rfl, fun q hq => ⟨q.2, hq, .same _⟩, fun q hq => ⟨q.2, hq, .same _⟩, fun k x h => ⟨x, h, .same _⟩⟩
  | obj _ m m' hd hp hf =>
    obtain ⟨a, b, c, d⟩ := hf.rekeyed
    refine ⟨m', rfl, hp.length_eq.trans a, fun q hq => b q (hp.mem_iff.1 hq), fun q hq => ?_, fun k x h => d k x ?_⟩
    · obtain ⟨x, hx, hr⟩ := c q hq
      exact ⟨x, hp.mem_iff.2 hx, hr⟩
    · rw [lookup_iff_mem hd] at h
      exact (lookup_iff_mem ((hp.map _).nodup_iff.1 hd) k x).2 (hp.mem_iff.1 h)

theorem ReorderAll.forall₂ {js js' : List Json} (h : ReorderAll js js') : List.Forall₂ Reorder js js' := by
  induction js generalizing js' with
  | nil => cases h; exact .nil
  | cons j js ih =>
    cases h with
    | cons _ _ _ _ h1 h2 => exact .cons h1 (ih h2)

theorem Reorder.of_arr {js : List Json} {j' : Json} (h : Reorder (.arr js) j') : ∃ js', j' = .arr js' ∧ List.Forall₂ Reorder js js' := by
  cases h with
  | same => exact ⟨js, rfl, List.forall₂_same.2 fun x _ => .same x⟩
  | arr _ js' h => exact ⟨js', rfl, h.forall₂⟩

theorem sameFields_iff (as bs : List (Str × Json)) : sameFields as bs = true ↔ ∀ q ∈ as, ∃ b, bs.lookup q.1 = some b ∧ same q.2 b = true := by
  induction as with
  | nil => simp [sameFields]
  | cons q as ih =>
    obtain ⟨k, a⟩ := q
    rw [sameFields, Bool.and_eq_true, ih, List.forall_mem_cons]
    refine and_congr ?_ Iff.rfl
    cases bs.lookup k <;> simp

theorem sameAll_reorder {as as' : List Json} (ha : List.Forall₂ Reorder as as') : ∀ bs bs', List.Forall₂ Reorder bs bs' →
    (∀ a ∈ as, ∀ a' b b', Reorder a a' → Reorder b b' → same a b = true → same a' b' = true) → sameAll as bs = true → sameAll as' bs' = true := by
  induction ha with
  | nil => intro bs bs' hb _ h; cases hb with
    | nil => exact h
    | cons => simp [sameAll] at h
  | @cons a a' as as' h1 _ ih =>
    intro bs bs' hb hs h
    cases hb with
    | nil => simp [sameAll] at h
    | cons h2 hb =>
      rw [sameAll, Bool.and_eq_true] at h ⊢
      exact ⟨hs a (by simp) _ _ _ h1 h2 h.1, ih _ _ hb (fun a ha => hs a (by simp [ha])) h.2⟩

theorem same_reorder_of (a a' b b' : Json) (ha : Reorder a a') (hb : Reorder b b') (h : same a b = true) : same a' b' = true := by
  generalize hs : sizeOf a = s
  induction s using Nat.strong_induction_on generalizing a a' b b' with
  | _ s ih =>
    subst hs
    cases a with
    | arr as =>
      cases b with
      | arr bs =>
        obtain ⟨as', rfl, key_ha⟩ := ha.of_arr
        clear ha; rename' key_ha => ha
        obtain ⟨bs', rfl, key_hb⟩ := hb.of_arr
        clear hb; rename' key_hb => hb
        rw [same] at h ⊢
        refine sameAll_reorder ha _ _ hb (fun a hm a' b b' h1 h2 h3 => ih _ ?_ a a' b b' h1 h2 h3 rfl) h
        have := List.sizeOf_lt_of_mem hm
        simp only [Json.arr.sizeOf_spec]
        omega
      | _ => simp [same] at h
    | obj as =>
      cases b with
      | obj bs =>
        obtain ⟨as', rfl, key_ha⟩ := ha.of_obj
        clear ha; rename' key_ha => ha
        obtain ⟨bs', rfl, key_hb⟩ := hb.of_obj
        clear hb; rename' key_hb => hb
        rw [same, Bool.and_eq_true, decide_eq_true_eq, sameFields_iff] at h ⊢
        refine ⟨by rw [← ha.length, ← hb.length]; exact h.1, fun q hq => ?_⟩
        obtain ⟨x, hx, hr⟩ := ha.bwd q hq
        obtain ⟨b, hb1, hb2⟩ := h.2 _ hx
        obtain ⟨b', hb3, hb4⟩ := hb.find _ _ hb1
        refine ⟨b', hb3, ih _ ?_ x q.2 b b' hr hb4 hb2 rfl⟩
        have := List.sizeOf_lt_of_mem hx
        simp only [Prod.mk.sizeOf_spec, Json.obj.sizeOf_spec] at this ⊢
        omega
      | _ => simp [same] at h
    | _ =>
      cases ha
      cases hb <;> exact h

theorem same_reorder {a a' b b' : Json} (ha : Reorder a a') (hb : Reorder b b') : same a b = same a' b' :=
  Bool.eq_iff_iff.2 ⟨same_reorder_of a a' b b' ha hb, same_reorder_of a' a b' b ha.symm hb.symm⟩

theorem pairwise_reorder {js js' : List Json} (h : List.Forall₂ Reorder js js') :
    js.Pairwise (fun a b => same a b = false) ↔ js'.Pairwise (fun a b => same a b = false) := by
  induction h with
  | nil => simp
  | @cons a a' as as' h1 h2 ih =>
    rw [List.pairwise_cons, List.pairwise_cons, ih]
    refine and_congr ?_ Iff.rfl
    clear ih
    induction h2 with
    | nil => simp
    | cons h3 _ ih => rw [List.forall_mem_cons, List.forall_mem_cons, ih, same_reorder h1 h3]

theorem all_reorder {P : Json → Prop} {js js' : List Json} (h : List.Forall₂ Reorder js js') (hP : ∀ x ∈ js, ∀ x', Reorder x x' → (P x ↔ P x')) :
    (∀ x ∈ js, P x) ↔ ∀ x ∈ js', P x := by
  induction h with
  | nil => simp
  | cons h1 _ ih => rw [List.forall_mem_cons, List.forall_mem_cons, hP _ (by simp) _ h1, ih fun x hx => hP x (by simp [hx])]

theorem meets_reorder (env : Env) (j j' : Json) (t : Ty) (h : Reorder j j') : Meets env j t ↔ Meets env j' t := by
  induction j, t using Meets.induct generalizing j' with
  | case1 j p =>
    rw [Meets, Meets]
    cases h with
    | same => exact Iff.rfl
    | _ => cases p <;> simp [LeafMeets]
  | case2 js t ih =>
    obtain ⟨js', rfl, key_h⟩ := h.of_arr
    clear h; rename' key_h => h
    rw [Meets, Meets]
    exact all_reorder h fun x hx x' hr => ih x hx x' hr
  | case3 js n t ih =>
    obtain ⟨js', rfl, key_h⟩ := h.of_arr
    clear h; rename' key_h => h
    rw [Meets, Meets, h.length_eq]
    exact and_congr Iff.rfl (all_reorder h fun x hx x' hr => ih x hx x' hr)
  | case4 js t ih =>
    obtain ⟨js', rfl, key_h⟩ := h.of_arr
    clear h; rename' key_h => h
    rw [Meets, Meets]
    exact and_congr (pairwise_reorder h) (all_reorder h fun x hx x' hr => ih x hx x' hr)
  | case5 ms o t ih =>
    obtain ⟨ms', rfl, key_h⟩ := h.of_obj
    clear h; rename' key_h => h
    rw [Meets, Meets]
    constructor
    · intro hm q hq
      obtain ⟨x, hx, hr⟩ := h.bwd q hq
      exact (ih _ hx _ hr).1 (hm _ hx)
    · intro hm q hq
      obtain ⟨x, hx, hr⟩ := h.fwd q hq
      exact (ih _ hq _ hr).2 (hm _ hx)
  | case6 js t ih =>
    obtain ⟨js', rfl, key_h⟩ := h.of_arr
    clear h; rename' key_h => h
    rw [Meets, Meets]
    exact all_reorder h fun x hx x' hr => ih x hx x' hr
  | case7 js ts ih =>
    obtain ⟨js', rfl, key_h⟩ := h.of_arr
    clear h; rename' key_h => h
    have hl := h.length_eq
    rw [Meets, Meets]
    refine and_congr (by rw [hl]) ⟨fun hm i h1 h2 => ?_, fun hm i h1 h2 => ?_⟩
    · exact (ih i (by omega) h2 _ (h.get (by omega) h1)).1 (hm i (by omega) h2)
    · exact (ih i (by omega) h2 _ (h.get (by omega) (by omega))).2 (hm i (by omega) h2)
  | case8 j ts ih1 =>
    rw [Meets, Meets]
    exact exists₂_congr fun i hi => and_congr (ih1 i hi _ h) (forall₃_congr fun k hk _ => not_congr (ih1 k hk _ h))
  | case9 ms c ih =>
    obtain ⟨ms', rfl, key_h⟩ := h.of_obj
    clear h; rename' key_h => h
    rw [Meets, Meets]
    refine and_congr ⟨fun hm q hq => ?_, fun hm q hq => ?_⟩ (forall₃_congr fun m _ _ => ?_)
    · obtain ⟨x, hx, hr⟩ := h.bwd q hq
      obtain ⟨m, h1, h2⟩ := hm _ hx
      exact ⟨m, h1, (ih _ hx m _ hr).1 h2⟩
    · obtain ⟨x, hx, hr⟩ := h.fwd q hq
      obtain ⟨m, h1, h2⟩ := hm _ hx
      exact ⟨m, h1, (ih _ hq m _ hr).2 h2⟩
    · simp only [List.mem_map]
      constructor
      · rintro ⟨q, hq, he⟩
        obtain ⟨x, hx, -⟩ := h.fwd q hq
        exact ⟨_, hx, he⟩
      · rintro ⟨q, hq, he⟩
        obtain ⟨x, hx, -⟩ := h.bwd q hq
        exact ⟨_, hx, he⟩
  | case10 j t ih => rw [Meets, Meets]; exact ih _ h
  | case11 j t ih => rw [Meets, Meets]; exact ih _ h
  | case12 j t =>
    cases h with
    | same => exact Iff.rfl
    | _ => cases t <;> simp_all [Meets]

end Verif.Core
