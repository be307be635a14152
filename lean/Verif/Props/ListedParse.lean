import Verif.ListedParse
import Verif.Props.Listed
import Verif.Props.ParseMore

/-!
# C126: the streaming parser and the order of members
-/

namespace Verif.Props
open Verif.Core Verif.Numeric Verif.Demo Verif.PerfectHash Verif.Listed

/-- **C126, partial.** The parser accepts the same documents for classes with their members in another order, although it selects them with another hash table: for any two
tables that the constructor builds, whatever the targets and their contents.

Missing: variants, enumerations with names and the other types outside `Streamable`; documents that exhaust the handler stack. -/
theorem C126_parse_partial (env env' : Env) (hclk : env.clk = env'.clk) (hl : Relisted env env') (hdn : env.DistinctNames) (host host' : Host) (G : Nat → Prop)
    (hG : StreamableClasses env G) (hb : TablesBuilt env host) (hb' : TablesBuilt env' host') (d : Nat) (hroom : Roomy host d) (hroom' : Roomy host' d)
    (t : Ty) (ht : Streamable G t) (j : Json) (hd : j.depth ≤ d) (hp : j.proper = true) (target target' : Val) (n n' : Nat) :
    ((∃ v, parseBool env host t (.document j) target n = .accepted v) ↔ ∃ v, parseBool env' host' t (.document j) target' n' = .accepted v) ∧
    (parseBool env host t (.document j) target n = .rejected ↔ parseBool env' host' t (.document j) target' n' = .rejected) := by
  have hG' : StreamableClasses env' G := fun c hc =>
    ⟨fun h => (hG c hc).1 (List.Perm.eq_nil (h ▸ hl c)), fun m hm => (hG c hc).2 m ((hl c).mem_iff.2 hm)⟩
  rw [C42_document_partial env host G hG hb d hroom t ht j hd hp, C42_document_partial env' host' G hG' hb' d hroom' t ht j hd hp]
  have := meaning_matches hclk hl hdn j t target n target' n'
  generalize meaning env j t target n = r at this ⊢
  generalize meaning env' j t target' n' = r' at this ⊢
  cases this <;> simp [verdictOf]

/-- A host with the hash tables for the classes of `plainEnv`, listed backwards. -/
def backHost : Host where
  size := fun _ => 40
  align := fun _ => 8
  charSigned := true
  table := fun c => match build true (((backEnv plainEnv).members c).map (·.name)) 100 with | .ok t => t | _ => ⟨[], []⟩

theorem back_built : TablesBuilt (backEnv plainEnv) backHost := by
  have key : ∀ c, ((backEnv plainEnv).members c).length ≤ 2 ^ 63 ∧
      (3 ≤ ((backEnv plainEnv).members c).length → ∃ t, build true (((backEnv plainEnv).members c).map (·.name)) 100 = .ok t) := by
    have built : ∀ c, (match build true (((backEnv plainEnv).members c).map (·.name)) 100 with | .ok _ => true | _ => false) = true →
        ∃ t, build true (((backEnv plainEnv).members c).map (·.name)) 100 = .ok t := by
      intro c h
      split at h
      · exact ⟨_, by assumption⟩
      · cases h
    intro c
    match c with
    | 0 => exact ⟨by decide, fun h => absurd h (by decide)⟩
    | 1 => exact ⟨by decide, fun _ => built 1 (by decide +kernel)⟩
    | 2 => exact ⟨by decide, fun h => absurd h (by decide)⟩
    | 3 => exact ⟨by decide, fun h => absurd h (by decide)⟩
    | 4 => exact ⟨by decide, fun h => absurd h (by decide)⟩
    | 5 => exact ⟨by decide, fun _ => built 5 (by decide +kernel)⟩
    | n + 6 => exact ⟨show (2 : Nat) ≤ 2 ^ 63 by decide, fun h => absurd (show 3 ≤ 2 from h) (by decide)⟩
  intro c
  refine ⟨(key c).1, 100, by decide, fun h => ?_⟩
  obtain ⟨t, ht⟩ := (key c).2 h
  simp only [backHost, ht]

theorem back_roomy : Roomy backHost 100 :=
  roomy_of_sizes backHost 40 8 100 (fun _ => Nat.le_refl _) (fun _ => Nat.le_refl _) (by decide) (by decide)

/-- The two orders give other hash tables. -/
example : host.table 1 ≠ backHost.table 1 := by decide +kernel

example (target target' : Val) (n n' : Nat) (h : ∃ v, parseBool plainEnv host (.cls 4) (.document treeDoc) target n = .accepted v) :
    ∃ v, parseBool (backEnv plainEnv) backHost (.cls 4) (.document treeDoc) target' n' = .accepted v :=
  (C126_parse_partial plainEnv (backEnv plainEnv) rfl (backEnv_relisted plainEnv) plain_distinct host backHost streamed plain_streamable plain_built back_built 100
    host_roomy back_roomy (.cls 4) (.inr (.inr rfl)) treeDoc (by decide +kernel) (by decide +kernel) target target' n n').1.1 h

example (target target' : Val) (n n' : Nat) (h : parseBool plainEnv host (.vec (.cls 0)) (.document (.arr [maskedPoint])) target n = .rejected) :
    parseBool (backEnv plainEnv) backHost (.vec (.cls 0)) (.document (.arr [maskedPoint])) target' n' = .rejected :=
  (C126_parse_partial plainEnv (backEnv plainEnv) rfl (backEnv_relisted plainEnv) plain_distinct host backHost streamed plain_streamable plain_built back_built 100
    host_roomy back_roomy (.vec (.cls 0)) ⟨rfl, .inl rfl⟩ (.arr [maskedPoint]) (by decide +kernel) (by decide +kernel) target target' n n').2.1 h

end Verif.Props
