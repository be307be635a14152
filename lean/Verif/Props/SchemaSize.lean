import Verif.SchemaSize
import Verif.Props.GenWork

/-!
# The size of generated schemas (C114)

The specification is `nodes` (the values in a document), `spelled` and `spelledIn` (the number of types as they are written in the
program), `byValue` (no pointers to classes).
-/

namespace Verif.Demo
open Verif.Core

/-- Class 0 has no member variables; class n + 1 has two, which are pointers to class n. -/
def forkEnv : Env := { Demo.env with classes := fun n => ⟨List.replicate (n + 1) 97, match n with
  | 0 => []
  | n + 1 => [⟨lit "l", .required, .uptr (.cls n)⟩, ⟨lit "r", .required, .uptr (.cls n)⟩]⟩ }

/-- The schema of class n. -/
def forkType : Nat → Schema
  | 0 => .object [] []
  | n + 1 => .object [(lit "l", forkType n), (lit "r", forkType n)] [lit "l", lit "r"]

theorem fork_gen : ∀ (n : Nat) (d : Defs), gen forkEnv (2 * n + 1) (.cls n) d = some (forkType n, d) := by
  intro n
  induction n with
  | zero => intro d; rfl
  | succ n ih =>
    intro d
    have hm : forkEnv.members (n + 1) = [⟨lit "l", .required, .uptr (.cls n)⟩, ⟨lit "r", .required, .uptr (.cls n)⟩] := rfl
    have hmk : ∀ d, makeWith forkEnv (gen forkEnv (2 * n + 2)) (.uptr (.cls n)) d = some (forkType n, d) := fun d => by
      show gen forkEnv (2 * n + 2) (.uptr (.cls n)) d = _
      rw [gen]
      exact ih d
    show gen forkEnv (2 * n + 2 + 1) (.cls (n + 1)) d = _
    rw [gen]
    simp only [hm, visitWith, hmk, Option.bind_some, Option.map_some]
    rfl

theorem fork_nodes (n : Nat) : snodes (forkType n) + 7 = 12 * 2 ^ n := by
  induction n with
  | zero => rw [forkType, snodes_object]; rfl
  | succ n ih =>
    rw [forkType, snodes_object]
    simp only [List.map_cons, List.map_nil, snodesAll, List.length_cons, List.length_nil]
    rw [Nat.pow_succ]
    omega

end Verif.Demo

namespace Verif.Props
open Verif.Core Verif.Demo

theorem typeAt_child {env : Env} {t u v : Ty} {p : List Nat} (h : typeAt env t p = some u) (hv : v ∈ children env u) : ∃ q, typeAt env t q = some v := by
  obtain ⟨i, hi, rfl⟩ := List.mem_iff_getElem.1 hv
  refine ⟨p ++ [i], ?_⟩
  induction p generalizing t with
  | nil =>
    cases h
    rw [List.nil_append, typeAt]
    rw [List.getElem?_eq_getElem hi]
    rfl
  | cons k p ih =>
    rw [typeAt, Option.bind_eq_some_iff] at h
    obtain ⟨w, h1, h2⟩ := h
    rw [List.cons_append, typeAt, h1, Option.bind_some]
    exact ih h2

/-- **C114 (partial).** A schema document has at most six values for each type that is spelled in the type and in the member variables of the
classes found in it, each class counted once however often it is used.

Missing: pointers to classes (`C114_exponential`). -/
theorem C114_linear_partial (env : Env) (version : Option Str) (fuel : Nat) (t : Ty) (s : Schema) (D : Defs) (h : buildSchema env fuel t = some (s, D))
    (ht : byValue t = true) (hv : ∀ p c, typeAt env t p = some (.cls c) → ∀ m ∈ env.members c, byValue m.ty = true) :
    ∃ cs : List Nat, cs.Nodup ∧ (∀ c ∈ cs, ∃ p, typeAt env t p = some (.cls c)) ∧ cs.map (className env) = D.map (·.1) ∧
      nodes (schemaDoc version D s) ≤ 6 * (spelled t + spelledIn env t + (cs.map fun c => 1 + spelledIn env (.cls c)).sum) + 1 := by
  obtain ⟨⟨h1, h2⟩, h3⟩ := gen_small env (fun u => ∃ p, typeAt env t p = some u) (fun _ ⟨_, hp⟩ _ hw => typeAt_child hp hw) (fun c ⟨p, hp⟩ => hv p c hp) fuel t [] (s, D)
    ⟨[], rfl⟩ ht ⟨by simp [KeysAsc], by simp⟩ h
  obtain ⟨cs, h4, h5, h6⟩ := smallDefs_classes (env := env) (U := fun u => ∃ p, typeAt env t p = some u) D h2
  refine ⟨cs, ?_, h4, h5, ?_⟩
  · have : (cs.map (className env)).Nodup := by
      rw [h5, List.Nodup, List.pairwise_map]
      exact h1.imp fun hl he => by rw [he, strLess_irrefl] at hl; cases hl
    rw [List.Nodup, List.pairwise_map] at this
    exact this.imp fun hne he => hne (congrArg _ he)
  · have := nodes_schemaDoc version D s
    simp only [defNodes] at h3 h6 this
    omega

/-- The classes of C110, 2^31 - 1 calls for the thirtieth, have a small document. -/
example : ∃ s D, buildSchema twinEnv 31 (.cls 30) = some (s, D) ∧ nodes (schemaDoc none D s) ≤ 6 * (3 + 30 * 3) + 1 := by
  have hb : buildSchema twinEnv 31 (.cls 30) = some (twinType 30, twinDefs 30 []) := by
    have := genLog_fst twinEnv 31 (.cls 30) []
    rw [twin_gen 30 []] at this
    exact this.symm
  have hm : ∀ c, ∀ m ∈ twinEnv.members c, byValue m.ty = true := by
    intro c m hm
    match c with
    | 0 => cases hm
    | c + 1 =>
      have hm' : m ∈ [⟨lit "l", .required, .cls c⟩, ⟨lit "r", .required, .cls c⟩] := hm
      simp only [List.mem_cons, List.not_mem_nil, or_false] at hm'
      rcases hm' with rfl | rfl <;> rfl
  obtain ⟨cs, h1, h2, h3, h4⟩ := C114_linear_partial twinEnv none 31 (.cls 30) _ _ hb rfl fun _ c _ => hm c
  refine ⟨_, _, hb, Nat.le_trans h4 ?_⟩
  have hl : cs.length = 30 := by
    have := congrArg List.length h3
    rw [List.length_map, List.length_map, twinDefs_length] at this
    exact this
  have hs : ∀ l : List Nat, (l.map fun c => 1 + spelledIn twinEnv (.cls c)).sum ≤ l.length * 3 := by
    intro l
    induction l with
    | nil => exact Nat.le_refl _
    | cons c l ih =>
      have : spelledIn twinEnv (.cls c) ≤ 2 := by
        match c with
        | 0 => exact Nat.zero_le _
        | c + 1 => exact Nat.le_refl _
      simp only [List.map_cons, List.sum_cons, List.length_cons]
      omega
  have := hs cs
  have h5 : spelled (.cls 30) + spelledIn twinEnv (.cls 30) = 3 := rfl
  rw [hl] at this
  omega

/-- **C114 (partial).** For all types: at most nine values for each call of the generator, the calls of which are counted in C110. -/
theorem C114_calls_partial (env : Env) (version : Option Str) (fuel : Nat) (t : Ty) (s : Schema) (D : Defs) (log : List Ty) (h : genLog env fuel t [] = some ((s, D), log)) :
    nodes (schemaDoc version D s) ≤ 9 * log.length := by
  have h1 := genLog_paid env fuel t [] _ _ h
  have h2 := nodes_schemaDoc version D s
  have h3 : defNodes [] = 0 := rfl
  simp only [defNodes] at h1 h2 h3
  omega

example : ∃ s D log, genLog schemaEnv 4 (.cls 1) [] = some ((s, D), log) ∧ nodes (schemaDoc none D s) ≤ 9 * 33 :=
  ⟨_, _, _, rfl, C114_calls_partial schemaEnv none 4 (.cls 1) _ _ _ rfl⟩

/-- **C114 is false for pointers to classes**: what they point to is described where they are, however often, and not among the definitions. For n + 1 classes
with 2n member variables in all, the document has 12 · 2^n - 7 values. -/
theorem C114_exponential (n : Nat) : ∃ s, buildSchema forkEnv (2 * n + 1) (.cls n) = some (s, []) ∧ nodes (schemaDoc none [] s) + 7 = 12 * 2 ^ n ∧
    spelled (.cls n) + ((List.range (n + 1)).map fun c => spelledIn forkEnv (.cls c)).sum = 4 * n + 1 := by
  refine ⟨_, fork_gen n [], ?_, ?_⟩
  · exact fork_nodes n
  · induction n with
    | zero => rfl
    | succ n ih =>
      have h2 : spelledIn forkEnv (.cls (n + 1)) = 4 := rfl
      rw [List.range_succ, List.map_append, List.sum_append]
      simp only [List.map_cons, List.map_nil, List.sum_cons, List.sum_nil, h2, spelled] at ih ⊢
      omega

example : ∃ s, buildSchema forkEnv 61 (.cls 30) = some (s, []) ∧ 12000000000 < nodes (schemaDoc none [] s) := by
  obtain ⟨s, h1, h2, -⟩ := C114_exponential 30
  exact ⟨s, h1, by omega⟩

end Verif.Props
