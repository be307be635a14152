import Verif.GenWork
import Verif.Props.Schema

/-!
# The work of generating a schema (C110)

The specification is `typeAt` (the types at the places of a type), `spelled` and `spelledIn` (the number of types as they are
written in the program).
-/

namespace Verif.Core

/-- The class, if the type is one. -/
def classOf : Ty → Option Nat
  | .cls c => some c
  | _ => none

theorem classOf_some {t : Ty} {c : Nat} (h : classOf t = some c) : t = .cls c := by
  cases t <;> simp_all [classOf]

theorem sum_classOf (env : Env) (l : List Ty) : (l.map (spelledIn env)).sum = ((l.filterMap classOf).map fun c => spelledIn env (.cls c)).sum := by
  induction l with
  | nil => rfl
  | cons t l ih =>
    cases t with
    | cls c => rw [List.filterMap_cons_some (f := classOf) (a := .cls c) (b := c) rfl, List.map_cons, List.map_cons, List.sum_cons, List.sum_cons, ih]
    | _ => rw [List.filterMap_cons_none rfl, List.map_cons, List.sum_cons, ih]; exact Nat.zero_add _

theorem sum_subset (f : Nat → Nat) : ∀ (l m : List Nat), l.Nodup → (∀ c ∈ l, c ∈ m) → (l.map f).sum ≤ (m.map f).sum := by
  intro l
  induction l with
  | nil => intro m _ _; exact Nat.zero_le _
  | cons a l ih =>
    intro m hn hs
    obtain ⟨s, u, rfl⟩ := List.append_of_mem (hs a (List.mem_cons_self ..))
    have hn' := List.nodup_cons.1 hn
    have h := ih (s ++ u) hn'.2 fun c hc => by
      have := hs c (List.mem_cons_of_mem _ hc)
      simp only [List.mem_append, List.mem_cons] at this ⊢
      rcases this with h | rfl | h
      · exact .inl h
      · exact absurd hc hn'.1
      · exact .inr h
    simp only [List.map_append, List.sum_append, List.map_cons, List.sum_cons] at h ⊢
    omega

theorem placed_once {env : Env} {t : Ty} {l : List Ty} (h : Placed env t l)
    (h1 : ∀ p q c, typeAt env t p = some (.cls c) → typeAt env t q = some (.cls c) → p = q) : (l.filterMap classOf).Nodup := by
  obtain ⟨ps, k1, _, k3⟩ := h
  have h2 : (ps.map (typeAt env t)).Pairwise fun a b => ∀ c, a = some (.cls c) → b ≠ some (.cls c) := by
    rw [List.pairwise_map]
    exact k1.imp fun hpq c ha hb => hpq (h1 _ _ c ha hb)
  rw [← k3, List.pairwise_map] at h2
  rw [List.Nodup, List.pairwise_filterMap]
  refine h2.imp fun hab c ha d hb hcd => ?_
  subst hcd
  exact hab c (congrArg some (classOf_some ha)) (congrArg some (classOf_some hb))

theorem placed_mem {env : Env} {t : Ty} {l : List Ty} (h : Placed env t l) {u : Ty} (hu : u ∈ l) : ∃ p, typeAt env t p = some u := by
  obtain ⟨ps, _, _, k3⟩ := h
  have h2 : some u ∈ l.map some := List.mem_map.2 ⟨u, hu, rfl⟩
  rw [k3] at h2
  obtain ⟨p, _, hp⟩ := List.mem_map.1 h2
  exact ⟨p, hp⟩

end Verif.Core

namespace Verif.Demo
open Verif.Core

/-- Class 0 has no member variables; class n + 1 has two, of class n. -/
def twinEnv : Env := { Demo.env with classes := fun n => ⟨List.replicate (n + 1) 97, match n with
  | 0 => []
  | n + 1 => [⟨lit "l", .required, .cls n⟩, ⟨lit "r", .required, .cls n⟩]⟩ }

/-- The schema of class n + 1. -/
def twinSchema (n : Nat) : Schema :=
  .object [(lit "l", .ref (defRef (List.replicate (n + 1) 97))), (lit "r", .ref (defRef (List.replicate (n + 1) 97)))] [lit "l", lit "r"]

/-- The schema of class n. -/
def twinType : Nat → Schema
  | 0 => .object [] []
  | n + 1 => twinSchema n

/-- The definitions after the schema of class n has been generated. -/
def twinDefs : Nat → Defs → Defs
  | 0, d => d
  | n + 1, d => (twinDefs n d).insert (List.replicate (n + 1) 97) (twinType n)

/-- The calls for class n. -/
def twinLog : Nat → List Ty
  | 0 => [.cls 0]
  | n + 1 => .cls (n + 1) :: (twinLog n ++ twinLog n)

theorem insert_old {d : Defs} {k : Str} {s : Schema} (h : (d.lookup k).isSome) : d.insert k s = d := by
  rw [Defs.insert]
  cases hl : d.lookup k with
  | none => rw [hl] at h; cases h
  | some _ => rfl

theorem lookup_insert (d : Defs) (k : Str) (s : Schema) : ((d.insert k s).lookup k).isSome := by
  rcases Defs.insert_lookup d k s with ⟨_, h⟩ | ⟨h, s', h'⟩
  · rw [h]; rfl
  · rw [h, h']; rfl

theorem lookup_kept (d : Defs) (k k' : Str) (s : Schema) (h : (d.lookup k').isSome) : ((d.insert k s).lookup k').isSome := by
  by_cases hk : k' = k
  · subst hk; exact lookup_insert d _ s
  · rw [Defs.insert]
    cases d.lookup k with
    | none => exact (mapAssign_lookup_ne k k' s d hk).symm ▸ h
    | some _ => exact h

theorem twin_has (n : Nat) (d : Defs) : ∀ i < n, ((twinDefs n d).lookup (List.replicate (i + 1) 97)).isSome := by
  induction n with
  | zero => intro i hi; cases hi
  | succ n ih =>
    intro i hi
    by_cases h : i = n
    · subst h; exact lookup_insert _ _ _
    · exact lookup_kept _ _ _ _ (ih i (by omega))

theorem twin_same (n : Nat) (d : Defs) (h : ∀ i < n, (d.lookup (List.replicate (i + 1) 97)).isSome) : twinDefs n d = d := by
  induction n with
  | zero => rfl
  | succ n ih =>
    rw [twinDefs, ih fun i hi => h i (by omega)]
    exact insert_old (h n (by omega))

theorem twin_gen : ∀ (n : Nat) (d : Defs), genLog twinEnv (n + 1) (.cls n) d = some ((twinType n, twinDefs n d), twinLog n) := by
  intro n
  induction n with
  | zero => intro d; rfl
  | succ n ih =>
    intro d
    have hm : twinEnv.members (n + 1) = [⟨lit "l", .required, .cls n⟩, ⟨lit "r", .required, .cls n⟩] := rfl
    have hn : (twinEnv.classes n).name = List.replicate (n + 1) 97 := rfl
    have h2 : twinDefs n (twinDefs (n + 1) d) = twinDefs (n + 1) d := twin_same n _ fun i hi => twin_has (n + 1) d i (by omega)
    have h3 : (twinDefs (n + 1) d).insert (List.replicate (n + 1) 97) (twinType n) = twinDefs (n + 1) d := insert_old (twin_has (n + 1) d n (by omega))
    have hmk : ∀ d, makeLog twinEnv (genLog twinEnv (n + 1)) (.cls n) d =
        some ((.ref (defRef (List.replicate (n + 1) 97)), (twinDefs n d).insert (List.replicate (n + 1) 97) (twinType n)), twinLog n) := by
      intro d; rw [makeLog, ih, hn]; rfl
    have h1 : (twinDefs n d).insert (List.replicate (n + 1) 97) (twinType n) = twinDefs (n + 1) d := rfl
    rw [genLog]
    simp only [hm, visitLog, hmk, h1, h2, h3, Option.bind_some, Option.map_some, List.append_nil]
    rfl

theorem twinLog_length (n : Nat) : (twinLog n).length + 1 = 2 ^ (n + 1) := by
  induction n with
  | zero => rfl
  | succ n ih => rw [twinLog, List.length_cons, List.length_append, Nat.pow_succ]; omega

theorem twin_keys (n : Nat) : ∀ p ∈ twinDefs n [], p.1.length ≤ n := by
  induction n with
  | zero => intro p hp; cases hp
  | succ n ih =>
    intro p hp
    rw [twinDefs, Defs.insert] at hp
    cases hl : (twinDefs n []).lookup (List.replicate (n + 1) 97) with
    | some _ => rw [hl] at hp; exact Nat.le_succ_of_le (ih p hp)
    | none =>
      rw [hl] at hp
      rcases mapAssign_mem hp with rfl | hp
      · simp
      · exact Nat.le_succ_of_le (ih p hp)

theorem assign_length {α : Type} (k : Str) (a : α) : ∀ l : List (Str × α), l.lookup k = none → (mapAssign k a l).length = l.length + 1 := by
  intro l
  induction l with
  | nil => intro _; rfl
  | cons p l ih =>
    obtain ⟨k', b⟩ := p
    intro h
    rw [List.lookup_cons] at h
    rw [mapAssign]
    split
    · rename_i he; subst he; simp at h
    · split
      · split at h
        · cases h
        · rw [List.length_cons, ih h, List.length_cons]
      · rfl

theorem twinDefs_length (n : Nat) : (twinDefs n []).length = n := by
  induction n with
  | zero => rfl
  | succ n ih =>
    have hl : (twinDefs n []).lookup (List.replicate (n + 1) 97) = none := by
      cases hl : (twinDefs n []).lookup (List.replicate (n + 1) 97) with
      | none => rfl
      | some s =>
        rw [List.lookup_eq_some_iff] at hl
        obtain ⟨l1, l2, h, _⟩ := hl
        have := twin_keys n (List.replicate (n + 1) 97, s) (by rw [h]; exact List.mem_append_right _ (List.mem_cons_self ..))
        rw [List.length_replicate] at this
        omega
    rw [twinDefs, Defs.insert, hl]
    show (mapAssign _ _ _).length = _
    rw [assign_length _ _ _ hl, ih]

end Verif.Demo

namespace Verif.Props
open Verif.Core Verif.Demo

/-- **C110 (partial).** Whenever a schema is generated, `JsonSchema<T>::type` is called exactly once for each place of
the type, with the type at that place; places inside a class count again for each place of the class. Missing: no class
is gone through twice (`C110_exponential`). -/
theorem C110_places_partial (env : Env) (fuel : Nat) (t : Ty) (r : Schema × Defs) (h : buildSchema env fuel t = some r) :
    ∃ log, genLog env fuel t [] = some (r, log) ∧
      ∃ ps : List (List Nat), ps.Nodup ∧ (∀ p, p ∈ ps ↔ (typeAt env t p).isSome) ∧ log.map some = ps.map (typeAt env t) := by
  have h1 := genLog_fst env fuel t []
  rw [show gen env fuel t [] = some r from h, Option.map_eq_some_iff] at h1
  obtain ⟨⟨r', log⟩, h2, rfl⟩ := h1
  exact ⟨log, h2, called_placed env fuel t log ⟨_, _, h2⟩⟩

example : ∃ r log, buildSchema twinEnv 3 (.cls 2) = some r ∧ genLog twinEnv 3 (.cls 2) [] = some (r, log) ∧
    log = [.cls 2, .cls 1, .cls 0, .cls 0, .cls 1, .cls 0, .cls 0] ∧ typeAt twinEnv (.cls 2) [1, 0] = some (.cls 0) := by
  have hb : buildSchema twinEnv 3 (.cls 2) = some (twinType 2, twinDefs 2 []) := by
    have := genLog_fst twinEnv 3 (.cls 2) []
    rw [twin_gen 2 []] at this
    exact this.symm
  obtain ⟨log, h, _⟩ := C110_places_partial twinEnv 3 (.cls 2) _ hb
  rw [twin_gen 2 []] at h
  cases h
  exact ⟨_, _, hb, twin_gen 2 [], rfl, rfl⟩

/-- **C110 (partial).** The number of calls is the number of types spelled in the type and, for each call with a class, the number
of types spelled in its member variables. -/
theorem C110_calls_partial (env : Env) (fuel : Nat) (t : Ty) (d : Defs) (r : Schema × Defs) (log : List Ty) (h : genLog env fuel t d = some (r, log)) :
    log.length = spelled t + (log.map (spelledIn env)).sum :=
  called_length env fuel t log ⟨_, _, h⟩

example : ((genLog schemaEnv 4 (.cls 1) []).map fun x => x.2.length) = some 33 ∧ spelled (.cls 1) = 1 ∧ spelledIn schemaEnv (.cls 1) = 24 ∧
    spelledIn schemaEnv (.cls 0) = 2 := by decide +kernel

/-- **C110 (partial).** If no class is found at two places of the type, there are at most as many calls as there are types in
the program text: those spelled in the type and in the member variables of its classes. -/
theorem C110_linear_partial (env : Env) (fuel : Nat) (t : Ty) (d : Defs) (r : Schema × Defs) (log : List Ty) (h : genLog env fuel t d = some (r, log))
    (h1 : ∀ p q c, typeAt env t p = some (.cls c) → typeAt env t q = some (.cls c) → p = q)
    (cs : List Nat) (hc : ∀ p c, typeAt env t p = some (.cls c) → c ∈ cs) :
    log.length ≤ spelled t + (cs.map fun c => spelledIn env (.cls c)).sum := by
  have hp := called_placed env fuel t log ⟨_, _, h⟩
  rw [called_length env fuel t log ⟨_, _, h⟩, sum_classOf]
  refine Nat.add_le_add_left (sum_subset _ _ _ (placed_once hp h1) fun c hm => ?_) _
  obtain ⟨u, hu, hcu⟩ := List.mem_filterMap.1 hm
  obtain ⟨p, hp⟩ := placed_mem hp hu
  exact hc p c (classOf_some hcu ▸ hp)

example : ∃ r log, genLog twinEnv 2 (.vec (.cls 0)) [] = some (r, log) ∧ log.length ≤ 2 := by
  refine ⟨_, _, rfl, C110_linear_partial twinEnv 2 (.vec (.cls 0)) [] _ _ rfl ?_ [0] ?_⟩
  · have h : ∀ p c, typeAt twinEnv (.vec (.cls 0)) p = some (.cls c) → p = [0] := by
      intro p c hp
      match p, hp with
      | [], hp => cases hp
      | [0], _ => rfl
      | [_ + 1], hp => cases hp
      | 0 :: _ :: _, hp => cases hp
      | (_ + 1) :: _ :: _, hp => cases hp
    intro p q c hp hq
    rw [h p c hp, h q c hq]
  · intro p c hp
    match p, hp with
    | [], hp => cases hp
    | [0], hp => cases hp; exact List.mem_singleton.2 rfl
    | [_ + 1], hp => cases hp
    | 0 :: _ :: _, hp => cases hp
    | (_ + 1) :: _ :: _, hp => cases hp

/-- **C110 is false**: for n + 1 classes with 2n member variables in all, where each class but the first has two member
variables of the class before it, `JsonSchema<T>::type` is called 2^(n+1) - 1 times; n definitions are kept. -/
theorem C110_exponential (n : Nat) : ∃ s defs log, genLog twinEnv (n + 1) (.cls n) [] = some ((s, defs), log) ∧
    log.length + 1 = 2 ^ (n + 1) ∧ defs.length = n ∧
    spelled (.cls n) + ((List.range (n + 1)).map fun c => spelledIn twinEnv (.cls c)).sum = 2 * n + 1 := by
  refine ⟨_, _, _, twin_gen n [], twinLog_length n, twinDefs_length n, ?_⟩
  induction n with
  | zero => rfl
  | succ n ih =>
    have h2 : spelledIn twinEnv (.cls (n + 1)) = 2 := rfl
    rw [List.range_succ, List.map_append, List.sum_append]
    simp only [List.map_cons, List.map_nil, List.sum_cons, List.sum_nil, h2, spelled] at ih ⊢
    omega

example : ∃ s defs log, genLog twinEnv 31 (.cls 30) [] = some ((s, defs), log) ∧ log.length = 2147483647 ∧ defs.length = 30 := by
  obtain ⟨s, defs, log, h, hl, hd, _⟩ := C110_exponential 30
  exact ⟨s, defs, log, h, by omega, hd⟩

end Verif.Props
