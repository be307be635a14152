import Verif.ReadLeft
import Verif.Props.ReadExact

/-!
# C98: what `bool deserialize` leaves in the variable
-/

namespace Verif.Props
open Verif.Core Verif.Numeric Verif.Demo

theorem bool_left (env : Env) (t : Ty) (root : Json) (hn : Plainly env root t) (hc : Calm env root) (target : Val) (next : Nat) :
    ∃ ok w, deserializeBool env t root target next = some (ok, w) ∧ (ok = false ↔ Turned env t root) ∧ Remnant env t root target w := by
  obtain ⟨ok, w, st', h1, h2, h3⟩ := remnant env root t hn hc root target [] [] ⟨[], next⟩
  exact ⟨ok, w, by rw [deserializeBool, h1], h2, h3⟩

/-- **C98.** For types without shared pointers: whatever the document is, `bool deserialize` returns `false` exactly for the refused
documents, and exactly what is specified is left in the variable. -/
theorem C98_exact (env : Env) (hu : env.Unshared) (t : Ty) (ht : t.unshared = true) (root : Json) (hc : Calm env root) (target : Val) (next : Nat)
    (ok : Bool) (w : Val) :
    deserializeBool env t root target next = some (ok, w) ↔ (ok = false ↔ Refused env false t root) ∧ Remnant env t root target w := by
  obtain ⟨ok', w', h1, h2, h3⟩ := bool_left env t root (.inr ⟨hu, ht⟩) hc target next
  rw [turned_unshared hu ht] at h2
  rw [h1, Option.some.injEq, Prod.mk.injEq]
  constructor
  · rintro ⟨rfl, rfl⟩
    exact ⟨h2, h3⟩
  · rintro ⟨e1, e2⟩
    refine ⟨?_, remnant_unique env hu root t ht target w' w h3 e2⟩
    cases ok <;> cases ok' <;> simp_all

/-- **C98.** For all types, on documents without references: the same, except that the addresses of shared objects are not specified. -/
theorem C98_shared (env : Env) (t : Ty) (root : Json) (hn : root.noRef) (hc : Calm env root) (target : Val) (next : Nat) :
    ∃ ok w, deserializeBool env t root target next = some (ok, w) ∧ (ok = false ↔ Refused env.lower false t.lower root) ∧ Remnant env t root target w :=
  bool_left env t root (.inl hn) hc target next

/-- **C98.** What is left is a value of the type, whether the document was refused or not: containers are in order, arrays and tuples have
their lengths, variants hold one of their alternatives. -/
theorem C98_shaped (env : Env) (hl : StrictLess env.less) (hclk : 0 < env.clk) (t : Ty) (root : Json) (hn : root.noRef ∨ (env.Unshared ∧ t.unshared = true))
    (hc : Calm env root) (hf : FreshShaped env t) (target : Val) (htg : Shaped env target t) (next : Nat) (ok : Bool) (w : Val)
    (h : deserializeBool env t root target next = some (ok, w)) : Shaped env w t := by
  obtain ⟨ok', w', h1, -, h3⟩ := bool_left env t root hn hc target next
  rw [h, Option.some.injEq, Prod.mk.injEq] at h1
  obtain ⟨rfl, rfl⟩ := h1
  exact h3.shaped hl hclk hf htg

/-- **C98.** What is left in a member of an object does not depend on the other members: not on their values in the document, and not
on whether they are refused. -/
theorem C98_member (env : Env) (hu : env.Unshared) (c : Nat) (ms ms' : List (Str × Json)) (hc : Calm env (.obj ms)) (hc' : Calm env (.obj ms'))
    (vs vs' : List Val) (next next' : Nat) (ok ok' : Bool) (w w' : Val)
    (h : deserializeBool env (.cls c) (.obj ms) (.obj vs) next = some (ok, w)) (h' : deserializeBool env (.cls c) (.obj ms') (.obj vs') next' = some (ok', w'))
    (i : Nat) (m : Member) (hm : (env.members c)[i]? = some m) (hd : (findMember m.name ms).map (·.2) = (findMember m.name ms').map (·.2))
    (hv : vs[i]? = vs'[i]?) : w.members[i]? = w'.members[i]? := by
  have h1 := ((C98_exact env hu (.cls c) rfl _ hc _ _ _ _).1 h).2
  have h2 := ((C98_exact env hu (.cls c) rfl _ hc' _ _ _ _).1 h').2
  have hv' : vs.getD i (env.fresh m.ty) = vs'.getD i (env.fresh m.ty) := by
    rw [List.getD_eq_getElem?_getD, List.getD_eq_getElem?_getD, hv]
  have hmt := hu c m (List.mem_of_getElem? hm)
  have hi : i < (env.members c).length := (List.getElem?_eq_some_iff.1 hm).1
  cases h1 with
  | array _ _ _ hx => cases hx
  | object _ _ _ _ hx => exact absurd rfl (hx _)
  | cls _ _ _ us xs a1 a2 a3 a4 a5 =>
    cases h2 with
    | array _ _ _ hx => cases hx
    | object _ _ _ _ hx => exact absurd rfl (hx _)
    | cls _ _ _ us' xs' b1 b2 b3 b4 b5 =>
      simp only [Val.members] at *
      have e1 := List.getElem?_eq_getElem (l := us) (i := i) (by omega)
      have e2 := List.getElem?_eq_getElem (l := us') (i := i) (by omega)
      generalize us[i] = u at e1
      generalize us'[i] = u' at e2
      rw [e1, e2]
      congr 1
      cases hf : findMember m.name ms with
      | none =>
        rw [hf] at hd
        have hf' : findMember m.name ms' = none := by
          cases hf' : findMember m.name ms' with
          | none => rfl
          | some p => rw [hf'] at hd; cases hd
        rw [a5 i m u hm e1 hf, b5 i m u' hm e2 hf', hv']
      | some p =>
        obtain ⟨k, j⟩ := p
        rw [hf] at hd
        cases hf' : findMember m.name ms' with
        | none => rw [hf'] at hd; cases hd
        | some p' =>
          obtain ⟨k', j'⟩ := p'
          rw [hf'] at hd
          simp only [Option.map_some, Option.some.injEq] at hd
          subst hd
          by_cases hk : m.kind = .optional
          · rw [a3 i m u k j hm e1 hf hk, b3 i m u' k' j hm e2 hf' hk]
            rw [remnant_unique env hu j m.ty hmt _ _ _ (a4 i m k j hm hf hk) (b4 i m k' j hm hf' hk)]
          · have r2 := b2 i m u' k' j hm e2 hf' hk
            rw [← hv'] at r2
            exact remnant_unique env hu j m.ty hmt _ _ _ (a2 i m u k j hm e1 hf hk) r2

/-! ## Examples -/

/-- The `Item` before. -/
def oldItem : Val := .obj [.prim (.int 9), .present (.prim (.str (lit "old"))), .prim (.int 4)]

/-- `{"id": 1, "note": 5}` into an `Item` with number 9, the note "old" and count 4: the new number, a new note that nothing was read into,
and the old count. -/
theorem badNote_left (next : Nat) :
    deserializeBool plainEnv (.cls 1) badNote oldItem next = some (false, .obj [.prim (.int 1), .present (plainEnv.fresh tStr), .prim (.int 4)]) := rfl

example (next : Nat) : (false = false ↔ Refused plainEnv false (.cls 1) badNote) ∧
    Remnant plainEnv (.cls 1) badNote oldItem (.obj [.prim (.int 1), .present (plainEnv.fresh tStr), .prim (.int 4)]) :=
  (C98_exact plainEnv plainEnv_unshared (.cls 1) rfl _ badNote_calm _ next _ _).1 (badNote_left next)

/-- `[1, 2, "three", 4]` -/
def brokenList : Json := .arr [.num (.int 1), .num (.int 2), .str (lit "three"), .num (.int 4)]

theorem brokenList_calm : Calm plainEnv brokenList := by
  simp only [brokenList, Calm, CalmAll, CalmStr, and_true, true_and, ne_eq]
  decide +kernel

/-- The elements in front of the string are left, from the specification. -/
example (target : Val) (next : Nat) : deserializeBool plainEnv (.vec tInt) brokenList target next = some (false, .seq [.prim (.int 1), .prim (.int 2)]) := by
  have bad : Refused plainEnv false tInt (.str (lit "three")) := .prim _ _ _ fun pv h => by cases h
  refine (C98_exact plainEnv plainEnv_unshared (.vec tInt) rfl _ brokenList_calm target next _ _).2 ⟨by simpa using .vec _ _ _ _ (by simp) bad, ?_⟩
  have good : ∀ n : Int, int32.InRange n → ¬ Turned plainEnv tInt (.num (.int n)) := fun n hn h => by
    rw [turned_unshared plainEnv_unshared rfl] at h
    cases h with
    | prim _ _ _ h => exact h _ (.int _ n hn)
    | array _ _ _ h => cases h
    | object _ _ _ h => cases h
  refine .vec tInt _ target _ (by decide) ?_ ?_ ?_
  · intro i j v hj hv
    match i with
    | 0 => cases hj; cases hv; exact .prim _ _ _ _ (.int _ 1 (by decide))
    | 1 => cases hj; cases hv; exact .prim _ _ _ _ (.int _ 2 (by decide))
    | k + 2 => simp at hv
  · intro i j hi hj
    match i with
    | 0 => cases hj; exact good 1 (by decide)
    | 1 => cases hj; exact good 2 (by decide)
    | k + 2 => simp at hi
  · intro j hj
    cases hj
    exact (turned_unshared plainEnv_unshared rfl _).2 bad

/-- `{"left": {"id": 1}, "right": {"id": "two"}}` into `struct Both`: new objects for both pointers. -/
example (target : Val) (next : Nat) : ∃ ok w, deserializeBool Demo.env (.cls 2) badBoth target next = some (ok, w) ∧
    (ok = false ↔ Refused Demo.env.lower false (.cls 2) badBoth) ∧ Remnant Demo.env (.cls 2) badBoth target w :=
  C98_shared Demo.env (.cls 2) badBoth badBoth_noRef badBoth_calm target next

/-- New numbers and texts are empty. -/
def tidyEnv : Env := { plainEnv with
  fresh := fun t => match t with | .prim .str => .prim (.str []) | .prim (.int _) => .prim (.int 0) | _ => oldItem
  ctor := fun t => match t with | .prim .str => .prim (.str []) | .prim (.int _) => .prim (.int 0) | _ => oldItem }

theorem oldItem_shaped : Shaped tidyEnv oldItem (.cls 1) := by
  have hi : ∀ n : Int, int32.InRange n → Shaped tidyEnv (.prim (.int n)) tInt := fun n hn => .prim _ _ hn
  have hs : ∀ s : Str, Shaped tidyEnv (.prim (.str s)) tStr := fun s => .prim _ _ trivial
  refine .obj 1 _ rfl ?_ ?_ ?_
  · intro i v m hv hm hk
    match i with
    | 0 => cases hv; cases hm; exact hi 9 (by decide)
    | 1 => cases hv; cases hm; exact absurd rfl hk
    | 2 => cases hv; cases hm; exact hi 4 (by decide)
    | k + 3 => simp at hv
  · intro i u m hv hm hk
    match i with
    | 0 => cases hv
    | 1 => cases hv; cases hm; exact hs _
    | 2 => cases hv
    | k + 3 => simp at hv
  · intro i v m hv hm hk
    match i with
    | 0 => cases hm; cases hk
    | 1 => cases hv; exact .inr ⟨_, rfl⟩
    | 2 => cases hm; cases hk
    | k + 3 => simp at hv

theorem tidy_within : ∀ t, Within tidyEnv (.cls 1) t → t = .cls 1 ∨ t = tInt ∨ t = tStr := by
  intro t h
  induction h with
  | self => exact .inl rfl
  | inner t1 t2 _ h2 ih =>
    rcases ih with rfl | rfl | rfl
    · cases h2 with
      | cls _ m hm =>
        have : m = ⟨lit "id", .required, tInt⟩ ∨ m = ⟨lit "note", .optional, tStr⟩ ∨ m = ⟨lit "count", .default, tInt⟩ := by
          simpa [Env.members, tidyEnv, plainEnv, plainClasses, item] using hm
        rcases this with rfl | rfl | rfl <;> simp
    · cases h2
    · cases h2

theorem tidy_fresh : FreshShaped tidyEnv (.cls 1) := by
  intro t h
  have hi : Shaped tidyEnv (.prim (.int 0)) tInt := .prim _ _ (by decide : int32.InRange 0)
  have hs : Shaped tidyEnv (.prim (.str [])) tStr := .prim _ _ trivial
  rcases tidy_within t h with rfl | rfl | rfl
  · exact ⟨oldItem_shaped, oldItem_shaped⟩
  · exact ⟨hi, hi⟩
  · exact ⟨hs, hs⟩

example (next : Nat) : Shaped tidyEnv (.obj [.prim (.int 1), .present (.prim (.str [])), .prim (.int 4)]) (.cls 1) :=
  C98_shaped tidyEnv demo_strict (by decide) (.cls 1) badNote (.inr ⟨plainEnv_unshared, rfl⟩) (by simp [badNote, Calm, CalmFields]) tidy_fresh oldItem
    oldItem_shaped next false _ rfl

/-- The number is the same whatever the note is. -/
example (w w' : Val) (next : Nat) (h : deserializeBool plainEnv (.cls 1) badNote oldItem next = some (false, w))
    (h' : deserializeBool plainEnv (.cls 1) (.obj [(lit "id", .num (.int 1))]) (.obj [.prim (.int 9)]) next = some (true, w')) :
    w.members[0]? = w'.members[0]? :=
  C98_member plainEnv plainEnv_unshared 1 _ _ badNote_calm (by simp [Calm, CalmFields]) _ _ next next false true w w' h h' 0 ⟨lit "id", .required, tInt⟩ rfl rfl rfl

/-- **C98, not the stronger property.** `bool deserialize` is not atomic: it returns `false`, and the variable has changed. -/
theorem C98_not_atomic : ¬ ∀ (t : Ty) (j : Json) (target w : Val) (next : Nat),
    deserializeBool plainEnv t j target next = some (false, w) → w = target := by
  intro h
  have := h (.cls 1) badNote oldItem _ 0 (badNote_left 0)
  simp [oldItem] at this

end Verif.Props
