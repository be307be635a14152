import Verif.SchemaExact

/-!
# Types that can be exchanged without a change of the valid documents (C123)

`look` forgets what has no influence on validity: the kind of the floating-point type, of the map and of the pointer, and whether a sequence of fixed length is an
array or a tuple. Sets are not vectors, since their elements are to be different.
-/

namespace Verif.Exchange
open Verif.Core JsonSchema

mutual
/-- What a validator sees of a type. -/
def look : Ty → Ty
  | .prim (.flt _) => .prim (.flt .double)
  | .prim p => .prim p
  | .vec t => .vec (look t)
  | .arr n t => .tuple (List.replicate n (look t))
  | .set t => .set (look t)
  | .map _ t => .map false (look t)
  | .dict t => .vec (.tuple [.prim .str, look t])
  | .tuple ts => .tuple (looks ts)
  | .variant ts => .variant (looks ts)
  | .cls c => .cls c
  | .uptr t => look t
  | .sptr t => look t

/-- `look` for lists. -/
def looks : List Ty → List Ty
  | [] => []
  | t :: ts => look t :: looks ts
end

/-- The member with what is seen of its type. -/
def lookMember (m : Member) : Member := { m with ty := look m.ty }

/-- The program with what is seen of all types. -/
def lookEnv (env : Env) : Env := { env with classes := fun c => { env.classes c with members := (env.classes c).members.map lookMember } }

theorem looks_map (ts : List Ty) : looks ts = ts.map look := by
  induction ts with
  | nil => rfl
  | cons t ts ih => simp [looks, ih]

theorem look_members (env : Env) (c : Nat) : (lookEnv env).members c = (env.members c).map lookMember := rfl

theorem meets_look (env : Env) (j : Json) (t : Ty) : Meets env j t ↔ Meets (lookEnv env) j (look t) := by
  induction j, t using Meets.induct with
  | case1 j p => cases p <;> simp [look, Meets, LeafMeets]
  | case2 js t ih => rw [look, Meets, Meets]; exact forall₂_congr ih
  | case3 js n t ih =>
    rw [look, Meets, Meets]
    simp only [List.length_replicate, List.getElem_replicate]
    constructor
    · rintro ⟨hl, h⟩
      exact ⟨hl, fun i h1 _ => (ih _ (List.getElem_mem h1)).1 (h _ (List.getElem_mem h1))⟩
    · rintro ⟨hl, h⟩
      refine ⟨hl, fun x hx => ?_⟩
      obtain ⟨i, hi, rfl⟩ := List.getElem_of_mem hx
      exact (ih _ hx).2 (h i hi (by omega))
  | case4 js t ih => rw [look, Meets, Meets]; exact and_congr Iff.rfl (forall₂_congr ih)
  | case5 ms o t ih => rw [look, Meets, Meets]; exact forall₂_congr ih
  | case6 js t ih =>
    rw [look, Meets, Meets]
    refine forall₂_congr fun x hx => ?_
    have := ih x hx
    simpa only [look, looks] using this
  | case7 js ts ih =>
    rw [look, looks_map, Meets, Meets]
    simp only [List.length_map, List.getElem_map]
    exact and_congr Iff.rfl (forall₃_congr ih)
  | case8 j ts ih1 =>
    rw [look, looks_map, Meets, Meets]
    simp only [List.length_map, List.getElem_map]
    exact exists₂_congr fun i h => and_congr (ih1 i h) (forall₃_congr fun k h _ => not_congr (ih1 k h))
  | case9 ms c ih =>
    rw [look, Meets, Meets, look_members]
    refine and_congr (forall₂_congr fun q h => ?_) ?_
    · rw [List.find?_map]
      constructor
      · rintro ⟨m, h1, h2⟩
        exact ⟨lookMember m, Option.map_eq_some_iff.2 ⟨m, h1, rfl⟩, (ih q h m).1 h2⟩
      · rintro ⟨m', h1, h2⟩
        obtain ⟨m, h3, rfl⟩ := Option.map_eq_some_iff.1 h1
        exact ⟨m, h3, (ih q h m).2 h2⟩
    · rw [List.forall_mem_map]
      exact Iff.rfl
  | case10 j t ih => rw [look, Meets]; exact ih
  | case11 j t ih => rw [look, Meets]; exact ih
  | case12 j t => cases j <;> cases t <;> simp_all [Meets, look]

end Verif.Exchange
