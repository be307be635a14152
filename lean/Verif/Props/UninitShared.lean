import Verif.UninitShared
import Verif.Props.References

/-!
# C99: no contents of variables that were never written, documents with references
-/

namespace Verif.Props
open Verif.Core Verif.Numeric Verif.Demo

/-- **C99, `bool deserialize`, documents with references.** The object graph that is read from an accepted document, and the
addresses of its shared objects, do not depend on what the local variables of the readers contain, nor on the variable that is read into,
except for the default members.

Missing: masked members, and the types of `C71_denotes_iff_partial`; overflow of the clock. -/
theorem C99_shared_bool_partial (env : Env) (hd : env.DistinctNames) (t : Ty) (root : Json) (hc : Calm env root) (htame : Tame env t root)
    (hun : Unnested env t) (ho : OrderlyAlts env t root) (hm : ¬ Masks env root noObjects t root []) (f : Ty → Val) (hF : AlikeReach env f t root)
    (target target' : Val) (ha : Alike env t target target') (next : Nat) (v : Val) :
    deserializeBool env t root target next = some (true, v) ↔ deserializeBool (env.withFresh f) t root target' next = some (true, v) := by
  rw [C71_accepts_iff_partial env hd t root hc htame hun ho hm target next v,
    C71_accepts_iff_partial (env.withFresh f) hd t root (hc.withFresh f) (htame.withFresh f) (hun.withFresh f) (ho.withFresh f)
      (fun h => hm ((masks_withFresh_iff ..).1 h)) target' next v]
  exact exists_congr fun st' => (conveys_alike_iff env f root t root hF [] target target' ⟨[], next⟩ v st' ha).symm

/-- **C99, `T deserialize`, documents with references.**

Missing: dangling references, which may leave a half-read variable (`C71_dangling_truncates`); members masked inside variants; the types
of `C71_denotes_iff_partial`; overflow of the clock. -/
theorem C99_shared_throw_partial (env : Env) (hd : env.DistinctNames) (t : Ty) (root : Json) (hc : Calm env root) (htame : Tame env t root)
    (hun : Unnested env t) (ho : OrderlyAlts env t root) (hs : ¬ Dangles env root noObjects t root []) (f : Ty → Val) (hF : AlikeReach env f t root)
    (next : Nat) (v : Val) :
    deserializeThrow env t root next = .returned v ↔ deserializeThrow (env.withFresh f) t root next = .returned v := by
  rw [(C71_throw_exact_partial env hd t root hc htame hun ho hs next).1 v,
    (C71_throw_exact_partial (env.withFresh f) hd t root (hc.withFresh f) (htame.withFresh f) (hun.withFresh f) (ho.withFresh f)
      (fun h => hs ((dangles_withFresh_iff ..).1 h)) next).1 v]
  exact exists_congr fun st' => (conveys_alike_iff env f root t root hF [] _ _ ⟨[], next⟩ v st' (hF.1 t root .self)).symm

/-! ## Examples -/

/-- A new `Item` has `count` 7; everything else is junk. -/
def junkItem (junk : Val) : Ty → Val
  | .cls _ => .obj [junk, junk, .prim (.int 7)]
  | _ => junk

theorem alike_shared (a b a' b' : Val) : Alike sharedEnv (.cls 1) (.obj [a, b, .prim (.int 7)]) (.obj [a', b', .prim (.int 7)]) := by
  refine .cls 1 _ _ rfl ?_ ?_
  · intro i m hm hk
    rw [shared_item] at hm
    match i with
    | 0 => cases hm; cases hk
    | 1 => cases hm; cases hk
    | 2 => exact ⟨_, rfl, rfl⟩
    | i + 3 => cases hm
  · intro i m x x' hm _ _ _
    rcases item_member (.cls 1 m (List.mem_of_getElem? hm)) with h | h <;> rw [h] <;> exact .other _ _ _ (by simp) (by simp)

theorem items_alike (junk : Val) (root : Json) : AlikeReach sharedEnv (junkItem junk) tItems root := by
  constructor
  · intro t' j' h
    rcases items_within (reach_within h) with rfl | rfl | rfl | rfl | rfl
    · exact .other _ _ _ (by simp) (by simp)
    · exact .other _ _ _ (by simp) (by simp)
    · exact alike_shared _ _ _ _
    · exact .other _ _ _ (by simp) (by simp)
    · exact .other _ _ _ (by simp) (by simp)
  · intro t' j' h
    rcases h with h | h <;> rcases items_within (reach_within h) with h | h | h | h | h <;> cases h
    exact alike_shared _ _ _ _

example (junk : Val) : deserializeThrow (sharedEnv.withFresh (junkItem junk)) tItems (threeItems (.num (.int 2))) 0 =
    .returned (.seq [.sptr 0 (itemOf 1), .sptr 0 (itemOf 1), .sptr 1 (itemOf 2)]) :=
  (C99_shared_throw_partial sharedEnv shared_distinct tItems _ (items_calm (.num (.int 2)) trivial) (items_tame _) items_unnested (items_orderlyAlts _)
    (items_sound _) (junkItem junk) (items_alike junk _) 0 _).1 rfl

example (junk target target' : Val) (v : Val) :
    deserializeBool sharedEnv tItems (strayItems (.num (.int 5)) (lit "/0")) target 3 = some (true, v) ↔
    deserializeBool (sharedEnv.withFresh (junkItem junk)) tItems (strayItems (.num (.int 5)) (lit "/0")) target' 3 = some (true, v) := by
  refine C99_shared_bool_partial sharedEnv shared_distinct tItems _ ?_ (items_tame _) items_unnested (items_orderlyAlts _) (stray_unmasked _ _) (junkItem junk)
    (items_alike junk _) target target' (.other _ _ _ (by simp) (by simp)) 3 v
  simp only [strayItems, Calm, CalmAll, CalmFields, CalmStr, and_true, true_and, ne_eq]
  decide +kernel

end Verif.Props
