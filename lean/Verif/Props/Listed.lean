import Verif.Listed
import Verif.Props.Shuffle

/-!
# C126: the order in which a class lists its members

The specification is `Relisted` (`Verif.Listed`): every class lists the same members in some other order.
-/

namespace Verif.Props
open Verif.Core Verif.Numeric Verif.Demo Verif.Shuffle Verif.Listed

/-- No variant of the program has a class inside an alternative. -/
def PlainAlts (env : Env) : Prop := ∀ c, ∀ m ∈ env.members c, plainAlts m.ty = true

theorem PlainAlts.lower {env : Env} (h : PlainAlts env) : PlainAlts env.lower := by
  intro c m hm
  rw [Env.lower_members] at hm
  obtain ⟨m, hm', rfl⟩ := List.mem_map.1 hm
  exact (lower_plainAlts m.ty).trans (h c m hm')

/-! ## C126 -/

/-- **C126, types without shared pointers.** If the classes list their members in another order, the throwing reader accepts the same documents; and the documents
that it accepts are accepted by the reader without exceptions, whatever the order.

Missing: classes inside variants (violated, `C126_variant`), the verdict of the reader without exceptions on other documents (violated, `C126_bool`). -/
theorem C126_verdict_partial (env env' : Env) (hu : env.Unshared) (hu' : env'.Unshared) (hclk : env.clk = env'.clk) (hl : Relisted env env') (hp : PlainAlts env)
    (t : Ty) (ht : t.unshared = true) (hpt : plainAlts t = true) (root : Json) (hc : Calm env root) (target : Val) (next next' : Nat) :
    ((∃ v, deserializeThrow env t root next = .returned v) ↔ ∃ v, deserializeThrow env' t root next' = .returned v) ∧
    ((∃ path e, deserializeThrow env t root next = .threw path e) ↔ ∃ path e, deserializeThrow env' t root next' = .threw path e) ∧
    ((∃ v, deserializeThrow env t root next = .returned v) → ∃ v, deserializeBool env' t root target next' = some (true, v)) := by
  have hc' := calm_clk hclk root hc
  have x := C33_verdict env hu t ht root hc next
  have x' := C33_verdict env' hu' t ht root hc' next'
  have b' := C32_verdict env' hu' t ht root hc' target next'
  have r := refused_listed_iff hclk hl hp t hpt root
  exact ⟨x.2.trans ((not_congr r).trans x'.2.symm), x.1.trans (r.trans x'.1.symm), fun h => b'.2.2 fun hf => x.2.1 h (r.2 (refused_strict hf))⟩

/-- **C126, all types** on documents without references.

Missing: documents with references, and what is missing in `C126_verdict_partial`. -/
theorem C126_shared_partial (env env' : Env) (hclk : env.clk = env'.clk) (hl : Relisted env env') (hp : PlainAlts env) (t : Ty) (hpt : plainAlts t = true)
    (root : Json) (hn : root.noRef) (hc : Calm env root) (target : Val) (next next' : Nat) :
    ((∃ v, deserializeThrow env t root next = .returned v) ↔ ∃ v, deserializeThrow env' t root next' = .returned v) ∧
    ((∃ path e, deserializeThrow env t root next = .threw path e) ↔ ∃ path e, deserializeThrow env' t root next' = .threw path e) ∧
    ((∃ v, deserializeThrow env t root next = .returned v) → ∃ v, deserializeBool env' t root target next' = some (true, v)) := by
  have hc' := calm_clk hclk root hc
  have x := C33_shared_verdict env t root hn hc next
  have x' := C33_shared_verdict env' t root hn hc' next'
  have b' := C32_shared_verdict env' t root hn hc' target next'
  have r := refused_listed_iff (env := env.lower) (env' := env'.lower) hclk hl.lower hp.lower t.lower ((lower_plainAlts t).trans hpt) root
  exact ⟨x.2.trans ((not_congr r).trans x'.2.symm), x.1.trans (r.trans x'.1.symm), fun h => b'.2.2 fun hf => x.2.1 h (r.2 (refused_strict hf))⟩

/-- The program with the members of all classes listed backwards. -/
def backEnv (env : Env) : Env := { env with classes := fun c => { env.classes c with members := (env.classes c).members.reverse } }

theorem backEnv_relisted (env : Env) : Relisted env (backEnv env) := fun c => (List.reverse_perm (env.members c)).symm

theorem backEnv_unshared {env : Env} (h : env.Unshared) : (backEnv env).Unshared := fun c m hm => h c m (List.mem_reverse.1 hm)

theorem plainEnv_plainAlts : PlainAlts plainEnv := by
  intro c
  show ∀ m ∈ (plainClasses c).members, plainAlts m.ty = true
  unfold plainClasses
  split <;> simp only [point, item, sample, tree, List.forall_mem_cons] <;> decide

example (next next' : Nat) : ∃ path e, deserializeThrow (backEnv plainEnv) (.cls 0) maskedPoint next' = .threw path e :=
  (C126_verdict_partial plainEnv (backEnv plainEnv) plainEnv_unshared (backEnv_unshared plainEnv_unshared) rfl (backEnv_relisted plainEnv) plainEnv_plainAlts
    (.cls 0) rfl rfl maskedPoint maskedPoint_calm .nullptr next next').2.1.1
    ((C33_verdict plainEnv plainEnv_unshared (.cls 0) rfl _ maskedPoint_calm next).1.2 maskedPoint_refused)

example (next : Nat) : ∃ path e, deserializeThrow (backEnv plainEnv) (.vec (.sptr (.cls 0))) (.arr [maskedPoint]) next = .threw path e :=
  (C126_shared_partial plainEnv (backEnv plainEnv) rfl (backEnv_relisted plainEnv) plainEnv_plainAlts (.vec (.sptr (.cls 0))) rfl (.arr [maskedPoint])
    (by simp only [maskedPoint, Json.noRef, Json.noRefAll, Json.noRefFields]; decide) (by rw [Calm]; exact ⟨maskedPoint_calm, trivial⟩) .nullptr next next).2.1.1 ⟨_, _, rfl⟩

/-- **C126, violated by the reader without exceptions.** `{"x": "text", "y": 2}` is read as a point if `y` is listed last, and refused if `x` is. -/
theorem C126_bool :
    (∃ v, deserializeBool plainEnv (.cls 0) maskedPoint .nullptr 0 = some (true, v)) ∧
    ∃ v, deserializeBool (backEnv plainEnv) (.cls 0) maskedPoint .nullptr 0 = some (false, v) :=
  ⟨⟨_, rfl⟩, ⟨_, rfl⟩⟩

/-- **C126, violated by the throwing reader for classes inside variants**, because it reads alternatives without exceptions. -/
theorem C126_variant :
    (∃ v, deserializeThrow plainEnv (.variant [.cls 0, tStr]) maskedPoint 0 = .returned v) ∧
    ∃ path, deserializeThrow (backEnv plainEnv) (.variant [.cls 0, tStr]) maskedPoint 0 = .threw path .noAlternative :=
  ⟨⟨_, rfl⟩, ⟨_, rfl⟩⟩

/-- **C126, which error.** If two members are bad, the order decides which error is thrown. -/
theorem C126_which :
    deserializeThrow plainEnv (.cls 0) (.obj [(lit "x", .null), (lit "y", .null)]) 0 = .threw (lit "/x") .expectedNumber ∧
    deserializeThrow (backEnv plainEnv) (.cls 0) (.obj [(lit "x", .null), (lit "y", .null)]) 0 = .threw (lit "/y") .expectedNumber :=
  ⟨by with_unfolding_all rfl, by with_unfolding_all rfl⟩

end Verif.Props
