import Verif.Graph
import Verif.Demo
import Verif.Survive

/-!
# C49: termination on graphs of shared objects
-/

namespace Verif.Props
open Verif.Core Verif.Numeric Verif.Demo

/-! ## Cycles -/

/-- The object at `a` can be reached from `g` by following pointers. -/
def Reachable (H : Heap) (g : Val) (a : Nat) : Prop := ∃ b ∈ addrs g, a = b ∨ Relation.TransGen (Edge H) a b

/-- The object at `a` can be reached from itself by following pointers. -/
def OnCycle (H : Heap) (a : Nat) : Prop := Relation.TransGen (Edge H) a a

/-- There are finitely many objects. -/
def Finite (H : Heap) : Prop := ∃ l : List Nat, ∀ a, H a ≠ none → a ∈ l

theorem acc_irrefl {H : Heap} {a : Nat} (h : Acc (Edge H) a) : ¬ OnCycle H a := by
  induction h with
  | intro a _ ih =>
    intro hc
    unfold OnCycle at hc
    cases hc with
    | single h => exact ih a h (.single h)
    | tail h1 h2 => rename_i b; exact ih b h2 (.trans (.single h2) h1)

theorem acc_below {H : Heap} {a b : Nat} (h : Acc (Edge H) b) (hab : Relation.TransGen (Edge H) a b) : Acc (Edge H) a := by
  induction hab with
  | single h1 => exact h.inv h1
  | tail _ h2 ih => exact ih (h.inv h2)

theorem not_acc_step {H : Heap} {a : Nat} (h : ¬ Acc (Edge H) a) : ∃ b, Edge H b a ∧ ¬ Acc (Edge H) b :=
  Classical.byContradiction fun hn => h (.intro a fun b hb => Classical.byContradiction fun hb' => hn ⟨b, hb, hb'⟩)

theorem cycle_below {H : Heap} : ∀ (k : Nat) (l : List Nat) (a : Nat), l.length ≤ k → ¬ Acc (Edge H) a →
    (∀ b, H b ≠ none → b ∈ l ∨ Relation.TransGen (Edge H) a b) → ∃ c, (c = a ∨ Relation.TransGen (Edge H) c a) ∧ OnCycle H c := by
  intro k
  induction k with
  | zero =>
    intro l a hl ha hall
    obtain ⟨b, hb, -⟩ := not_acc_step ha
    have hne : H a ≠ none := by intro h0; simp [Edge, content, h0, addrs] at hb
    have : l = [] := List.length_eq_zero_iff.1 (by omega)
    subst this
    exact ⟨a, .inl rfl, (hall a hne).resolve_left (by simp)⟩
  | succ k ih =>
    intro l a hl ha hall
    obtain ⟨b, hb, hb'⟩ := not_acc_step ha
    have hne : H a ≠ none := by intro h0; simp [Edge, content, h0, addrs] at hb
    rcases hall a hne with hm | hc
    · obtain ⟨c, h1, h2⟩ := ih (l.erase a) b (by rw [List.length_erase_of_mem hm]; omega) hb' (by
        intro x hx
        by_cases hxa : x = a
        · subst hxa; exact .inr (.single hb)
        · rcases hall x hx with h | h
          · exact .inl ((List.mem_erase_of_ne hxa).2 h)
          · exact .inr (.trans (.single hb) h))
      refine ⟨c, .inr ?_, h2⟩
      rcases h1 with rfl | h1
      · exact .single hb
      · exact .tail h1 hb
    · exact ⟨a, .inl rfl, hc⟩

/-- In a finite heap, nothing reachable is on a cycle iff all chains of pointers end. -/
theorem acyclic_iff {H : Heap} (hfin : Finite H) (g : Val) :
    (∀ a ∈ addrs g, Acc (Edge H) a) ↔ ∀ a, Reachable H g a → ¬ OnCycle H a := by
  constructor
  · rintro h a ⟨b, hb, rfl | hab⟩
    · exact acc_irrefl (h a hb)
    · exact acc_irrefl (acc_below (h b hb) hab)
  · intro h a ha
    refine Classical.byContradiction fun hn => ?_
    obtain ⟨l, hl⟩ := hfin
    obtain ⟨c, h1, h2⟩ := cycle_below l.length l a (Nat.le_refl _) hn fun b hb => .inl (hl b hb)
    exact h c ⟨a, ha, h1⟩ h2

/-! ## Theorems -/

/-- **C49 (partial).** For every graph in a finite heap in which no reachable object is on a cycle, both serializers
return, and with the same result: there is a number of nested calls for shared objects that is enough, and more change nothing. -/
theorem C49_terminates_partial (env : Env) (hfair : env.Fair) (H : Heap) (hfin : Finite H) (hH : H.Fine env) (t : Ty) (g : Val)
    (hg : GTy env H g t) (hf : finite g = true) (hacyclic : ∀ a, Reachable H g a → ¬ OnCycle H a) (before : List Event) :
    ∃ n j, ∀ m, n ≤ m → serializeToDocument env t (unfold H m g) = some (some j) ∧
      writeToString env t (unfold H m g) before = some (true, events j) := by
  have hacc := (acyclic_iff hfin g).2 hacyclic
  obtain ⟨n, hn⟩ := unfold_settles hacc
  have hty := hasTy_expand env H g t hg fun a ha => hasTy_whole env H hH.typed (hacc a ha)
  have hfin' := finite_expand (whole H) g hf fun a ha => finite_whole env H hH (hacc a ha)
  obtain ⟨σ', es, h1, -⟩ := wr_total env hfair (fullHeap H) _ t [] [] hty (by intro a ha; simp [STab.keys] at ha)
  rw [hfin'] at h1
  obtain ⟨j, h2, rfl⟩ := wr_ser env _ _ _ _ _ _ h1
  refine ⟨n, j, fun m hm => ?_⟩
  rw [hn m hm]
  exact ⟨by simp [serializeToDocument, h2], by simp [writeToString, h1]⟩

/-- **C49 (partial).** The same with infinities and NaNs in the graph: both serializers return whenever no reachable object is on a
cycle, and more nested calls than `n` change nothing. -/
theorem C49_returns_partial (env : Env) (hfair : env.Fair) (H : Heap) (hfin : Finite H) (hH : H.Typed env) (t : Ty) (g : Val)
    (hg : GTy env H g t) (hacyclic : ∀ a, Reachable H g a → ¬ OnCycle H a) (before : List Event) :
    ∃ n r ok es, ∀ m, n ≤ m → serializeToDocument env t (unfold H m g) = some r ∧
      writeToString env t (unfold H m g) before = some (ok, es) := by
  have hacc := (acyclic_iff hfin g).2 hacyclic
  obtain ⟨n, hn⟩ := unfold_settles hacc
  have hty := hasTy_expand env H g t hg fun a ha => hasTy_whole env H hH (hacc a ha)
  obtain ⟨σ', es, h1, -⟩ := wr_total env hfair (fullHeap H) _ t [] [] hty (by intro a ha; simp [STab.keys] at ha)
  obtain ⟨σ2, r, h2, -, -⟩ := ser_total env hfair (fullHeap H) (fun _ => True) _ t [] [] hty (by intro a ha; simp [STab.keys] at ha)
    (fun _ _ => trivial)
  cases hf : finite (expand (whole H) g) with
  | true => exact ⟨n, r, true, es, fun m hm => by rw [hn m hm]; exact ⟨by simp [serializeToDocument, h2], by simp [writeToString, h1, hf]⟩⟩
  | false => exact ⟨n, r, false, before, fun m hm => by rw [hn m hm]; exact ⟨by simp [serializeToDocument, h2], by simp [writeToString, h1, hf]⟩⟩

/-- **C49, negation in general.** If an object on a cycle can be reached then neither serializer returns, however deep the
recursion. -/
theorem C49_cyclic (env : Env) (hfair : env.Fair) (H : Heap) (hH : H.Fine env) (t : Ty) (g : Val)
    (hg : GTy env H g t) (hf : finite g = true) (a : Nat) (hr : Reachable H g a) (hc : OnCycle H a) (before : List Event) :
    ∀ n, serializeToDocument env t (unfold H n g) = none ∧ writeToString env t (unfold H n g) before = none := by
  intro n
  have hser : ∀ σ' r, ser env (unfold H n g) t [] [] ≠ .done σ' r := by
    intro σ' r h
    obtain ⟨-, h2, -⟩ := ser_acc env hfair H hH n g t [] [] σ' r hg hf (by intro a ha; simp [STab.keys] at ha) h
    obtain ⟨b, hb, rfl | hab⟩ := hr
    · exact acc_irrefl (h2 a hb) hc
    · exact acc_irrefl (acc_below (h2 b hb) hab) hc
  constructor
  · unfold serializeToDocument
    cases h : ser env (unfold H n g) t [] [] with
    | ub => rfl
    | done σ' r => exact (hser _ _ h).elim
  · unfold writeToString
    cases h : wr env (unfold H n g) t [] [] with
    | ub => rfl
    | done σ' ok es =>
      cases ok with
      | true => obtain ⟨j, h2, -⟩ := wr_ser env _ _ _ _ _ _ h; exact (hser _ _ h2).elim
      | false => exact (wr_fin env _ _ _ _ _ _ (finite_expand _ g hf fun b _ => finite_object env H hH n b) h).elim

/-! ## Examples -/

/-- `struct Node { int value; std::optional<std::shared_ptr<Node>> next; }` -/
def nodeEnv : Env := { Demo.env with classes := fun _ => ⟨lit "Node", [⟨lit "value", .required, tInt⟩, ⟨lit "next", .optional, .sptr (.cls 0)⟩]⟩ }

/-- Node 1 refers to node 2, which is the last one. -/
def chainHeap : Heap := fun a => match a with
  | 1 => some (.cls 0, .obj [.prim (.int 10), .present (.sptr 2 .nullptr)])
  | 2 => some (.cls 0, .obj [.prim (.int 20), .absent])
  | _ => none

/-- Nodes 1 and 2 refer to each other. -/
def ringHeap : Heap := fun a => match a with
  | 1 => some (.cls 0, .obj [.prim (.int 10), .present (.sptr 2 .nullptr)])
  | 2 => some (.cls 0, .obj [.prim (.int 20), .present (.sptr 1 .nullptr)])
  | _ => none

/-- A vector with two pointers to the first node. -/
def roots : Val := .seq [.sptr 1 .nullptr, .sptr 1 .nullptr]

theorem chain_fine : chainHeap.Fine nodeEnv := by
  intro a t w h
  unfold chainHeap at h
  split at h <;> simp only [Option.some.injEq, Prod.mk.injEq, reduceCtorEq] at h <;> obtain ⟨rfl, rfl⟩ := h
  · simp only [GTy, Env.members, nodeEnv, GMembers, PrimTy, and_true, true_and]
    exact ⟨⟨by decide, _, rfl⟩, rfl⟩
  · simp only [GTy, Env.members, nodeEnv, GMembers, PrimTy, and_true]
    exact ⟨by decide, rfl⟩

theorem ring_fine : ringHeap.Fine nodeEnv := by
  intro a t w h
  unfold ringHeap at h
  split at h <;> simp only [Option.some.injEq, Prod.mk.injEq, reduceCtorEq] at h <;> obtain ⟨rfl, rfl⟩ := h
  · simp only [GTy, Env.members, nodeEnv, GMembers, PrimTy, and_true, true_and]
    exact ⟨⟨by decide, _, rfl⟩, rfl⟩
  · simp only [GTy, Env.members, nodeEnv, GMembers, PrimTy, and_true, true_and]
    exact ⟨⟨by decide, _, rfl⟩, rfl⟩

theorem roots_chain : GTy nodeEnv chainHeap roots (.vec (.sptr (.cls 0))) := by
  simp only [roots, GTy, GAll, and_true, true_and]
  exact ⟨⟨_, rfl⟩, ⟨_, rfl⟩⟩

theorem roots_ring : GTy nodeEnv ringHeap roots (.vec (.sptr (.cls 0))) := by
  simp only [roots, GTy, GAll, and_true, true_and]
  exact ⟨⟨_, rfl⟩, ⟨_, rfl⟩⟩

theorem chain_finite : Finite chainHeap := ⟨[1, 2], fun a h => by unfold chainHeap at h; split at h <;> simp_all⟩

theorem chain_edge {b a : Nat} (h : Edge chainHeap b a) : a = 1 ∧ b = 2 := by
  by_cases h1 : a = 1
  · subst h1
    exact ⟨rfl, by simpa [Edge, content, chainHeap, addrs, addrsAll] using h⟩
  · by_cases h2 : a = 2
    · subst h2
      simp [Edge, content, chainHeap, addrs, addrsAll] at h
    · have : chainHeap a = none := by unfold chainHeap; split <;> simp_all
      simp [Edge, content, this, addrs] at h

theorem chain_acyclic (a : Nat) : ¬ OnCycle chainHeap a := by
  have h2 : ∀ b, ¬ Edge chainHeap b 2 := fun b h => by have := (chain_edge h).1; omega
  have acc2 : Acc (Edge chainHeap) 2 := .intro 2 fun b h => (h2 b h).elim
  exact acc_irrefl (.intro a fun b h => by rw [(chain_edge h).2]; exact acc2)

example : ∃ n j, ∀ m, n ≤ m → serializeToDocument nodeEnv (.vec (.sptr (.cls 0))) (unfold chainHeap m roots) = some (some j) ∧
    writeToString nodeEnv (.vec (.sptr (.cls 0))) (unfold chainHeap m roots) [] = some (true, events j) :=
  C49_terminates_partial nodeEnv Demo.fair chainHeap chain_finite chain_fine _ roots roots_chain rfl (fun a _ => chain_acyclic a) []

/-- `struct Node { double value; std::optional<std::shared_ptr<Node>> next; }` -/
def weighedEnv : Env := { Demo.env with classes := fun _ => ⟨lit "Node", [⟨lit "value", .required, tDbl⟩, ⟨lit "next", .optional, .sptr (.cls 0)⟩]⟩ }

/-- Node 1 refers to node 2, which has no proper value. -/
def brokenHeap : Heap := fun a => match a with
  | 1 => some (.cls 0, .obj [.prim (.flt (.fin false 0 0)), .present (.sptr 2 .nullptr)])
  | 2 => some (.cls 0, .obj [.prim (.flt .nan), .absent])
  | _ => none

theorem broken_typed : brokenHeap.Typed weighedEnv := by
  intro a t w h
  unfold brokenHeap at h
  split at h <;> simp only [Option.some.injEq, Prod.mk.injEq, reduceCtorEq] at h <;> obtain ⟨rfl, rfl⟩ := h
  · simp only [GTy, Env.members, weighedEnv, GMembers, PrimTy, and_true, true_and]
    exact ⟨by decide, _, rfl⟩
  · simp only [GTy, Env.members, weighedEnv, GMembers, PrimTy, and_true]
    decide

theorem broken_acyclic (a : Nat) : ¬ OnCycle brokenHeap a := by
  have edge : ∀ b a, Edge brokenHeap b a → a = 1 ∧ b = 2 := by
    intro b a h
    by_cases h1 : a = 1
    · subst h1
      exact ⟨rfl, by simpa [Edge, content, brokenHeap, addrs, addrsAll] using h⟩
    · by_cases h2 : a = 2
      · subst h2
        simp [Edge, content, brokenHeap, addrs, addrsAll] at h
      · have : brokenHeap a = none := by unfold brokenHeap; split <;> simp_all
        simp [Edge, content, this, addrs] at h
  have h2 : ∀ b, ¬ Edge brokenHeap b 2 := fun b h => by have := (edge b 2 h).1; omega
  have acc2 : Acc (Edge brokenHeap) 2 := .intro 2 fun b h => (h2 b h).elim
  exact acc_irrefl (.intro a fun b h => by rw [(edge b a h).2]; exact acc2)

example : ∃ n r ok es, ∀ m, n ≤ m → serializeToDocument weighedEnv (.vec (.sptr (.cls 0))) (unfold brokenHeap m roots) = some r ∧
    writeToString weighedEnv (.vec (.sptr (.cls 0))) (unfold brokenHeap m roots) [] = some (ok, es) :=
  C49_returns_partial weighedEnv Demo.fair brokenHeap ⟨[1, 2], fun a h => by unfold brokenHeap at h; split at h <;> simp_all⟩ broken_typed _ roots
    (by simp only [roots, GTy, GAll, and_true, true_and]; exact ⟨⟨_, rfl⟩, ⟨_, rfl⟩⟩) (fun a _ => broken_acyclic a) []
example : writeToString weighedEnv (.vec (.sptr (.cls 0))) (unfold brokenHeap 2 roots) [] = some (false, []) := by with_unfolding_all rfl

/-- Two levels are enough here; the second pointer to the node becomes a reference. -/
example : serializeToDocument nodeEnv (.vec (.sptr (.cls 0))) (unfold chainHeap 2 roots) = some (some (.arr [
    .obj [(lit "value", .num (.int 10)), (lit "next", .obj [(lit "value", .num (.int 20))])], .obj [(lit "$ref", .str (lit "/0"))]])) := rfl
example : serializeToDocument nodeEnv (.vec (.sptr (.cls 0))) (unfold chainHeap 1 roots) = none := rfl

theorem ring_cycle : OnCycle ringHeap 1 := .tail (.single (show Edge ringHeap 1 2 by simp [Edge, content, ringHeap, addrs, addrsAll])) (by simp [Edge, content, ringHeap, addrs, addrsAll])

example : ∀ n, serializeToDocument nodeEnv (.vec (.sptr (.cls 0))) (unfold ringHeap n roots) = none ∧
    writeToString nodeEnv (.vec (.sptr (.cls 0))) (unfold ringHeap n roots) [] = none :=
  C49_cyclic nodeEnv Demo.fair ringHeap ring_fine _ roots roots_ring rfl 1 ⟨1, by simp [roots, addrs, addrsAll], .inl rfl⟩ ring_cycle []

/-- **C49, negation.** There is a graph of two objects on which neither serializer returns. -/
theorem C49_not_terminating : ∃ (env : Env) (H : Heap) (t : Ty) (g : Val), env.Fair ∧ Finite H ∧ H.Fine env ∧ GTy env H g t ∧ finite g = true ∧
    ∀ n, serializeToDocument env t (unfold H n g) = none ∧ writeToString env t (unfold H n g) [] = none :=
  ⟨nodeEnv, ringHeap, .vec (.sptr (.cls 0)), roots, Demo.fair, ⟨[1, 2], fun a h => by unfold ringHeap at h; split at h <;> simp_all⟩, ring_fine, roots_ring, rfl,
    C49_cyclic nodeEnv Demo.fair ringHeap ring_fine _ roots roots_ring rfl 1 ⟨1, by simp [roots, addrs, addrsAll], .inl rfl⟩ ring_cycle []⟩

end Verif.Props
