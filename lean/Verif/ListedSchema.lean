import Mathlib.Data.List.Nodup
import Verif.Listed
import Verif.SchemaExact
import Verif.SchemaTerm

/-!
# The schema for members of classes in another order (C126)

The documents that are valid against the generated schema (`Meets`) are the same for both orders.
-/

namespace Verif.Listed
open Verif.Core

section
variable {env env' : Env}

theorem find_listed {ms ms' : List Member} (hp : ms.Perm ms') (hd : (ms.map (·.name)).Nodup) (k : Str) (m : Member) :
    ms.find? (fun m => m.name == k) = some m ↔ ms'.find? (fun m => m.name == k) = some m := by
  have key : ∀ l : List Member, (l.map (·.name)).Nodup → (l.find? (fun m => m.name == k) = some m ↔ m ∈ l ∧ m.name = k) := by
    intro l hl
    constructor
    · intro h
      exact ⟨List.mem_of_find?_eq_some h, by simpa using List.find?_some h⟩
    · rintro ⟨hm, rfl⟩
      cases h : l.find? (fun x => x.name == m.name) with
      | none => exact absurd (List.find?_eq_none.1 h m hm) (by simp)
      | some x =>
        have h1 := List.mem_of_find?_eq_some h
        have h2 : x.name = m.name := by simpa using List.find?_some h
        rw [List.inj_on_of_nodup_map hl h1 hm h2]
  rw [key ms hd, key ms' ((hp.map _).nodup_iff.1 hd), hp.mem_iff]

theorem meets_listed (hl : Relisted env env') (hd : env.DistinctNames) (j : Json) (t : Ty) : Meets env j t ↔ Meets env' j t := by
  induction j, t using Meets.induct with
  | case1 j p => simp only [Meets]
  | case2 js t ih => simp only [Meets]; exact forall₂_congr ih
  | case3 js n t ih => simp only [Meets]; exact and_congr Iff.rfl (forall₂_congr ih)
  | case4 js t ih => simp only [Meets]; exact and_congr Iff.rfl (forall₂_congr ih)
  | case5 ms o t ih => simp only [Meets]; exact forall₂_congr ih
  | case6 js t ih => rw [Meets, Meets]; exact forall₂_congr ih
  | case7 js ts ih => simp only [Meets]; exact and_congr Iff.rfl (forall₃_congr ih)
  | case8 j ts ih1 =>
    rw [Meets, Meets]
    exact exists₂_congr fun i h => and_congr (ih1 i h) (forall₃_congr fun k h _ => not_congr (ih1 k h))
  | case9 ms c ih =>
    rw [Meets, Meets]
    refine and_congr (forall₂_congr fun q h => exists_congr fun m => and_congr (find_listed (hl c) (hd c) _ _) (ih q h m)) ?_
    exact forall_congr' fun m => imp_congr (hl c).mem_iff Iff.rfl
  | case10 j t ih => rw [Meets, Meets]; exact ih
  | case11 j t ih => rw [Meets, Meets]; exact ih
  | case12 => simp only [Meets]

theorem uses_listed (hl : Relisted env env') : Uses env = Uses env' := by
  funext d c
  exact propext (exists_congr fun m => and_congr (hl c).mem_iff Iff.rfl)

end

end Verif.Listed
