import Verif.WriteEffort
import Verif.Props.Write
import Verif.Props.Compact

/-!
# C109: the time for writing

How much `serialize` does, in calls and in path segments, compared with the number of values and pointers in the object graph, where every shared object is counted once.
-/

namespace Verif.Props
open Verif.Core Verif.Numeric Verif.Demo

/-- The size of an object graph: the values and pointers of `v` and of the objects at the addresses `as`. -/
def graphSize (H : Heap) (v : Val) (as : List Nat) : Nat := partsOf v + (as.map (partsAt H)).sum

theorem effort_spent (env : Env) (hfair : env.Fair) (H : Heap) (c : Nat) (v : Val) (t : Ty) (ht : HasTy env H v t) (hf : finite v = true)
    (as : List Nat) (hnd : as.Nodup) (has : ∀ a, a ∈ as ↔ a ∈ addrs v) : Costs c (levels v) (graphSize H v as) (effortDocument env c t v) := by
  obtain ⟨new, doc, tr, h1, h2, h3⟩ := serOk env hfair H v t [] [] [] ht hf
  obtain ⟨new', doc', h1', -, h4⟩ := spends env hfair H c (levels v) v t [] [] ht hf (by simp) (fun _ h => nomatch h)
  rw [h1] at h1'
  simp only [List.append_nil, SRes.done.injEq, Option.some.injEq] at h1'
  obtain ⟨rfl, rfl⟩ := h1'
  have hall := (h3.all (by intro p hp; cases hp)).2
  have hp : (STab.keys new).Perm as := by
    refine (List.perm_ext_iff_of_nodup h4.nodup hnd).2 fun a => ?_
    rw [has]
    exact ⟨h4.sub a, fun ha => by simpa using hall a ha⟩
  have hs : partsSum H (STab.keys new) = (as.map (partsAt H)).sum := (hp.map _).sum_nat
  rw [graphSize, ← hs]
  exact h4.costs

/-- **C109, calls.** A value that has finite numbers only is written with exactly one call of `serialize` for each value and each pointer, each shared object being
visited once. -/
theorem C109_calls_partial (env : Env) (hfair : env.Fair) (H : Heap) (v : Val) (t : Ty) (ht : HasTy env H v t) (hf : finite v = true)
    (as : List Nat) (hnd : as.Nodup) (has : ∀ a, a ∈ as ↔ a ∈ addrs v) : effortDocument env 0 t v = graphSize H v as := by
  have h := effort_spent env hfair H 0 v t ht hf as hnd has
  refine Nat.le_antisymm ?_ h.1
  simpa using h.2

example : effortDocument Demo.env 0 (.cls 2) (.obj [.sptr 1 item7, .sptr 1 item7]) = 7 :=
  (C109_calls_partial Demo.env fair (fun _ => some (.cls 1, item7)) _ _ (by
      simp only [HasTy, Env.members, Demo.env, both, MembersTy, item7, item, PrimTy]; decide) rfl [1] (by simp) (by simp [addrs, addrsAll, item7])).trans rfl

/-- **C109, with paths.** With the path segments that are collected, copied and spelled, the work is at most the size of the graph times one plus twice its depth. -/
theorem C109_bound_partial (env : Env) (hfair : env.Fair) (H : Heap) (v : Val) (t : Ty) (ht : HasTy env H v t) (hf : finite v = true)
    (as : List Nat) (hnd : as.Nodup) (has : ∀ a, a ∈ as ↔ a ∈ addrs v) :
    graphSize H v as ≤ effortDocument env 1 t v ∧ effortDocument env 1 t v ≤ (1 + 2 * levels v) * graphSize H v as := by
  have h := effort_spent env hfair H 1 v t ht hf as hnd has
  exact ⟨h.1, by simpa using h.2⟩

example : effortDocument Demo.env 1 (.cls 2) (.obj [.sptr 1 item7, .sptr 1 item7]) ≤ 63 :=
  (C109_bound_partial Demo.env fair (fun _ => some (.cls 1, item7)) (.obj [.sptr 1 item7, .sptr 1 item7]) (.cls 2) (by
      simp only [HasTy, Env.members, Demo.env, both, MembersTy, item7, item, PrimTy]; decide) rfl [1] (by simp) (by simp [addrs, addrsAll, item7])).2

/-- **C109 without shared objects.** The work is at most the number of values and pointers, also when something in the value cannot be written. -/
theorem C109_unshared_partial (env : Env) (hfair : env.Fair) (v : Val) (t : Ty) (ht : HasTy env (fun _ => none) v t) : effortDocument env 1 t v ≤ partsOf v :=
  frugal env hfair 1 v t [] [] ht

example : effortDocument Demo.env 1 (.vec (.cls 0)) (.seq [badPoint, badPoint]) ≤ 7 :=
  C109_unshared_partial Demo.env fair (.seq [badPoint, badPoint]) (.vec (.cls 0))
    (by simp only [HasTy, AllTy, badPoint, Env.members, Demo.env, point, MembersTy, PrimTy]; decide)

theorem text_spent (env : Env) (hfair : env.Fair) (H : Heap) (c : Nat) (v : Val) (t : Ty) (ht : HasTy env H v t) (as : List Nat) (has : ∀ a ∈ addrs v, a ∈ as) :
    effortText env c t v ≤ (1 + c * (2 * levels v)) * graphSize H v as := by
  obtain ⟨met, h1, h2, -, h3, -⟩ := wspends env hfair H c (levels v) v t [] [] ht (by simp) (fun _ h => nomatch h)
  exact Nat.le_trans h3 (Nat.mul_le_mul_left _ (Nat.add_le_add_left (partsSum_le H met as h1 fun a ha => has a (h2 a ha)) _))

/-- **C109, calls for a text.** `write_to_string` stops at the first value that cannot be written, so for every value, finite or not, there is at most one call for each value
and each pointer of the graph. -/
theorem C109_text_calls (env : Env) (hfair : env.Fair) (H : Heap) (v : Val) (t : Ty) (ht : HasTy env H v t) (as : List Nat) (has : ∀ a ∈ addrs v, a ∈ as) :
    effortText env 0 t v ≤ graphSize H v as := by
  simpa using text_spent env hfair H 0 v t ht as has

example : effortText Demo.env 0 (.vec (.sptr (.cls 0))) (.seq [.sptr 1 badPoint, .sptr 1 badPoint]) ≤ 6 :=
  C109_text_calls Demo.env fair (fun _ => some (.cls 0, badPoint)) (.seq [.sptr 1 badPoint, .sptr 1 badPoint]) (.vec (.sptr (.cls 0)))
    (by simp only [HasTy, AllTy, badPoint, Env.members, Demo.env, point, MembersTy, PrimTy]; decide) [1] (by simp [addrs, addrsAll, badPoint])

/-- **C109, calls for a text that is written.** When everything can be written, there is exactly one call for each. -/
theorem C109_text_calls_exact (env : Env) (hfair : env.Fair) (H : Heap) (v : Val) (t : Ty) (ht : HasTy env H v t) (hf : finite v = true)
    (as : List Nat) (hnd : as.Nodup) (has : ∀ a, a ∈ as ↔ a ∈ addrs v) : effortText env 0 t v = graphSize H v as := by
  refine Nat.le_antisymm (C109_text_calls env hfair H v t ht as fun a => (has a).2) ?_
  obtain ⟨met, h1, h2, -, -, h3⟩ := wspends env hfair H 0 (levels v) v t [] [] ht (by simp) (fun _ h => nomatch h)
  obtain ⟨new, doc, tr, h4, -, h5⟩ := serOk env hfair H v t [] [] [] ht hf
  have h6 : ∃ σ' es, wr env v t [] [] = .done σ' true es := by
    obtain ⟨es, hw, -⟩ := C29_write_succeeds_iff_finite env hfair H t v ht []
    rw [hf, writeToString] at hw
    split at hw
    · cases hw
    · exact ⟨_, _, by assumption⟩
    · simp at hw
  obtain ⟨σ', es, h6⟩ := h6
  obtain ⟨new', h7, h8, -, h9⟩ := h3 σ' es h6
  obtain ⟨j, h10, -⟩ := wr_ser env v t [] [] σ' es h6
  rw [h4] at h10
  simp only [List.append_nil, SRes.done.injEq, Option.some.injEq] at h10
  rw [List.append_nil] at h7
  obtain ⟨rfl, rfl⟩ := h10
  subst h7
  have hall := (h5.all (by intro p hp; cases hp)).2
  have hle : partsSum H as ≤ partsSum H met := partsSum_le H as met hnd fun a ha => by
    have := hall a ((has a).1 ha)
    rw [List.append_nil, h8] at this
    exact this
  exact Nat.le_trans (Nat.add_le_add_left hle _) h9

example : effortText Demo.env 0 (.cls 2) (.obj [.sptr 1 item7, .sptr 1 item7]) = 7 :=
  (C109_text_calls_exact Demo.env fair (fun _ => some (.cls 1, item7)) _ _ (by
      simp only [HasTy, Env.members, Demo.env, both, MembersTy, item7, item, PrimTy]; decide) rfl [1] (by simp) (by simp [addrs, addrsAll, item7])).trans rfl

/-- **C109, with paths, for a text.** -/
theorem C109_text_bound_partial (env : Env) (hfair : env.Fair) (H : Heap) (v : Val) (t : Ty) (ht : HasTy env H v t) (as : List Nat) (has : ∀ a ∈ addrs v, a ∈ as) :
    effortText env 1 t v ≤ (1 + 2 * levels v) * graphSize H v as := by
  simpa using text_spent env hfair H 1 v t ht as has

example : effortText Demo.env 1 (.vec (.sptr (.cls 0))) (.seq [.sptr 1 badPoint, .sptr 1 badPoint]) ≤ 54 :=
  C109_text_bound_partial Demo.env fair (fun _ => some (.cls 0, badPoint)) (.seq [.sptr 1 badPoint, .sptr 1 badPoint]) (.vec (.sptr (.cls 0)))
    (by simp only [HasTy, AllTy, badPoint, Env.members, Demo.env, point, MembersTy, PrimTy]; decide) [1] (by simp [addrs, addrsAll, badPoint])

/-! ## A chain of shared objects -/

/-- The type of a chain of `n` shared vectors. -/
def ladderTy : Nat → Ty
  | 0 => tInt
  | n + 1 => .vec (.sptr (ladderTy n))

/-- A chain: each vector has one pointer to the next one. Nothing is referred to twice. -/
def ladderVal : Nat → Val
  | 0 => .prim (.int 7)
  | n + 1 => .seq [.sptr n (ladderVal n)]

/-- The heap with the chain. -/
def ladderHeap : Heap := fun a => some (ladderTy a, ladderVal a)

theorem ladder_typed (env : Env) (n : Nat) : HasTy env ladderHeap (ladderVal n) (ladderTy n) := by
  induction n with
  | zero => simp only [ladderVal, ladderTy, tInt, HasTy, PrimTy]; decide
  | succ n ih => simp [ladderVal, ladderTy, HasTy, AllTy, ladderHeap, ih]

theorem ladder_finite (n : Nat) : finite (ladderVal n) = true := by
  induction n with
  | zero => rfl
  | succ n ih => simp [ladderVal, finite, finiteAll, ih]

theorem ladder_addrs (n a : Nat) : a ∈ List.range n ↔ a ∈ addrs (ladderVal n) := by
  induction n with
  | zero => simp [ladderVal, addrs]
  | succ n ih =>
    rw [List.mem_range] at ih ⊢
    simp only [ladderVal, addrs, addrsAll, List.append_nil, List.mem_cons, ← ih]
    omega

theorem ladder_size (n : Nat) : graphSize ladderHeap (ladderVal n) (List.range n) = 2 * n + 1 := by
  induction n with
  | zero => rfl
  | succ n ih =>
    simp only [graphSize] at ih ⊢
    rw [List.range_succ, List.map_append, List.sum_append]
    simp only [List.map_cons, List.map_nil, List.sum_cons, List.sum_nil, partsAt, ladderHeap] at ih ⊢
    rw [show partsOf (ladderVal (n + 1)) = 2 from rfl]
    omega

theorem ladder_effort (env : Env) (hfair : env.Fair) (n : Nat) : ∀ segs, 2 * effort env 1 (ladderVal n) (ladderTy n) segs [] = n * n + 5 * n + 2 + 2 * n * segs.length := by
  induction n with
  | zero => intro segs; simp [ladderVal, ladderTy, tInt, effort]
  | succ n ih =>
    intro segs
    obtain ⟨new, j, tr, h1, -⟩ := serOk env hfair ladderHeap (ladderVal n) (ladderTy n) (.index 0 :: segs) [] [] (ladder_typed env n) (ladder_finite n)
    have h2 := ih (.index 0 :: segs)
    have hs : ∃ τ, ser env (.sptr n (ladderVal n)) (.sptr (ladderTy n)) (.index 0 :: segs) [] = .done τ (some j) := by
      rw [ser]; simp only [STab.get, List.lookup]; rw [h1]; exact ⟨_, rfl⟩
    obtain ⟨τ, hs⟩ := hs
    have he : effort env 1 (ladderVal (n + 1)) (ladderTy (n + 1)) segs [] =
        1 + (1 + (effort env 1 (ladderVal n) (ladderTy n) (.index 0 :: segs) [] + (segs.length + 1))) := by
      rw [ladderVal, ladderTy, effort, show List.replicate [Val.sptr n (ladderVal n)].length (Ty.sptr (ladderTy n)) = [.sptr (ladderTy n)] from rfl, effortItems]
      simp only [hs]
      rw [effort]
      simp only [STab.get, List.lookup]
      rw [h1]
      simp [effortItems]
    rw [he]
    simp only [List.length_cons] at h2
    grind

/-- **C109 is violated by the unchanged code: paths.** A chain of `n` shared objects has `2 n + 1` values and pointers and nothing is shared, but a path is collected for every
object: the work grows with the square of `n`. -/
theorem C109_chain (env : Env) (hfair : env.Fair) (n : Nat) :
    graphSize ladderHeap (ladderVal n) (List.range n) = 2 * n + 1 ∧ 2 * effortDocument env 1 (ladderTy n) (ladderVal n) = n * n + 5 * n + 2 := by
  refine ⟨ladder_size n, ?_⟩
  simpa [effortDocument] using ladder_effort env hfair n []

/-- **C109 is violated by the unchanged code: no constant.** Whatever the constant, there is a value with finite numbers for which the work is more than the constant times the size. -/
theorem C109_not_linear (env : Env) (hfair : env.Fair) (K : Nat) :
    ∃ H v t as, HasTy env H v t ∧ finite v = true ∧ as.Nodup ∧ (∀ a, a ∈ as ↔ a ∈ addrs v) ∧ K * graphSize H v as < effortDocument env 1 t v := by
  refine ⟨ladderHeap, ladderVal (4 * K), ladderTy (4 * K), List.range (4 * K), ladder_typed env _, ladder_finite _, List.nodup_range, ladder_addrs _, ?_⟩
  obtain ⟨h1, h2⟩ := C109_chain env hfair (4 * K)
  rw [h1]
  have : 4 * K * (4 * K) = 16 * (K * K) := by grind
  have : K * (2 * (4 * K) + 1) = 8 * (K * K) + K := by grind
  omega

example : effortDocument Demo.env 1 (ladderTy 100) (ladderVal 100) = 5251 := by
  have := (C109_chain Demo.env fair 100).2
  omega

/-! ## Objects that cannot be written -/

/-- `double`, and pairs of class `n` and a `double`. -/
def fragileTy : Nat → Ty
  | 0 => tDbl
  | n + 1 => .tuple [.cls n, tDbl]

/-- The program where class `n` has two shared pointers to a `fragileTy n`. -/
def fragileEnv : Env := { Demo.env with classes := fun n => ⟨lit "Two", [⟨lit "x", .required, .sptr (fragileTy n)⟩, ⟨lit "y", .required, .sptr (fragileTy n)⟩]⟩ }

/-- A value with two pointers to the same object, followed by a number that is not finite. -/
def fragileVal : Nat → Val
  | 0 => .prim (.flt .nan)
  | n + 1 => .tup [.obj [.sptr n (fragileVal n), .sptr n (fragileVal n)], .prim (.flt .nan)]

/-- An object of class `n`. -/
def fragileRoot (n : Nat) : Val := .obj [.sptr n (fragileVal n), .sptr n (fragileVal n)]

/-- The heap with the shared objects. -/
def fragileHeap : Heap := fun a => some (fragileTy a, fragileVal a)

theorem fragile_typed (n : Nat) : HasTy fragileEnv fragileHeap (fragileVal n) (fragileTy n) := by
  induction n with
  | zero => simp only [fragileVal, fragileTy, tDbl, HasTy, PrimTy]; decide
  | succ n ih =>
    simp only [fragileVal, fragileTy, HasTy, HasTys, MembersTy, Env.members, fragileEnv, tDbl, PrimTy, fragileHeap] at ih ⊢
    exact ⟨⟨⟨trivial, ih⟩, ⟨trivial, ih⟩, trivial⟩, by decide, trivial⟩

theorem fragile_root (n : Nat) : HasTy fragileEnv fragileHeap (fragileRoot n) (.cls n) := by
  have h := fragile_typed n
  simp only [fragileRoot, HasTy, MembersTy, Env.members, fragileEnv, fragileHeap] at h ⊢
  exact ⟨⟨trivial, h⟩, ⟨trivial, h⟩, trivial⟩

theorem fragile_addrs (n a : Nat) : a ∈ List.range (n + 1) ↔ a ∈ addrs (fragileRoot n) := by
  induction n with
  | zero => simp [fragileRoot, fragileVal, addrs, addrsAll]
  | succ n ih =>
    rw [List.mem_range] at ih ⊢
    have h : a ∈ addrs (fragileRoot (n + 1)) ↔ a = n + 1 ∨ a ∈ addrs (fragileRoot n) := by
      simp only [fragileRoot, fragileVal, addrs, addrsAll, List.append_nil, List.mem_cons, List.mem_append, List.cons_append]
      grind
    rw [h, ← ih]
    omega

theorem fragile_size (n : Nat) : graphSize fragileHeap (fragileRoot n) (List.range (n + 1)) = 5 * n + 4 := by
  induction n with
  | zero => rfl
  | succ n ih =>
    simp only [graphSize, show ∀ n, partsOf (fragileRoot n) = 3 from fun _ => rfl] at ih ⊢
    rw [List.range_succ, List.map_append, List.sum_append]
    have : partsAt fragileHeap (n + 1) = 5 := rfl
    simp only [List.map_cons, List.map_nil, List.sum_cons, List.sum_nil, this]
    omega

theorem fragile_members (n : Nat) (h1 : ∀ segs, ser fragileEnv (fragileVal n) (fragileTy n) segs [] = .done [] none) (segs : List Seg) :
    ser fragileEnv (fragileRoot n) (.cls n) segs [] = .done [] (some (.obj [])) := by
  rw [fragileRoot, ser]
  simp only [Env.members, fragileEnv] at h1 ⊢
  simp [serMembers, ser, STab.get, List.lookup, h1, SRes.map]

theorem fragile_fails (n : Nat) : ∀ segs, ser fragileEnv (fragileVal n) (fragileTy n) segs [] = .done [] none := by
  induction n with
  | zero => intro segs; rfl
  | succ n ih =>
    intro segs
    rw [fragileVal, fragileTy, ser, serItems]
    have := fragile_members n ih (.index 0 :: segs)
    rw [fragileRoot] at this
    rw [this]
    rfl

theorem fragile_two (n : Nat) (segs : List Seg) : effort fragileEnv 0 (fragileRoot n) (.cls n) segs [] =
    1 + (1 + effort fragileEnv 0 (fragileVal n) (fragileTy n) (.name (lit "x") :: segs) [] + (1 + effort fragileEnv 0 (fragileVal n) (fragileTy n) (.name (lit "y") :: segs) [])) := by
  have h1 := fragile_fails n
  have hs : ∀ segs, ser fragileEnv (.sptr n (fragileVal n)) (.sptr (fragileTy n)) segs [] = .done [] none := by
    intro segs
    rw [ser]
    simp only [STab.get, List.lookup, h1]
  have he : ∀ segs, effort fragileEnv 0 (.sptr n (fragileVal n)) (.sptr (fragileTy n)) segs [] = 1 + effort fragileEnv 0 (fragileVal n) (fragileTy n) segs [] := by
    intro segs
    rw [effort]
    simp only [STab.get, List.lookup, h1, Nat.add_zero]
  rw [fragileRoot, effort, show fragileEnv.members n = [⟨lit "x", .required, .sptr (fragileTy n)⟩, ⟨lit "y", .required, .sptr (fragileTy n)⟩] from rfl,
    effortMembers_cons]
  simp only [fieldOf, hs, he]
  rw [effortMembers_cons]
  simp only [fieldOf, hs, he]
  simp [effortMembers]

theorem fragile_effort (n : Nat) : ∀ segs, effort fragileEnv 0 (fragileVal n) (fragileTy n) segs [] + 5 = 6 * 2 ^ n := by
  induction n with
  | zero => intro segs; simp [fragileVal, fragileTy, tDbl, effort]
  | succ n ih =>
    intro segs
    have h1 := ih (.name (lit "x") :: .index 0 :: segs)
    have h2 := ih (.name (lit "y") :: .index 0 :: segs)
    have h3 := fragile_two n (.index 0 :: segs)
    have h4 := fragile_members n (fragile_fails n) (.index 0 :: segs)
    rw [fragileRoot] at h3 h4
    rw [fragileVal, fragileTy, effort, effortItems]
    simp only [h4]
    rw [h3]
    have h5 : effortItems fragileEnv 0 [.prim (.flt .nan)] [tDbl] (0 + 1) segs [] = 1 := by
      simp [effortItems, effort, ser]
      split <;> rfl
    rw [h5]
    omega

/-- **C109 is violated by the unchanged code: objects that cannot be written.** An object is entered in the table when it has been written, so one that cannot be written is
tried again wherever it is met, and a class goes on after a member that fails. The object graph has `5 n + 4` values and pointers and the document is `{}`, but `serialize` is called
`12 · 2 ^ n - 7` times. -/
theorem C109_exponential (n : Nat) :
    HasTy fragileEnv fragileHeap (fragileRoot n) (.cls n) ∧ graphSize fragileHeap (fragileRoot n) (List.range (n + 1)) = 5 * n + 4 ∧
    (∀ a, a ∈ List.range (n + 1) ↔ a ∈ addrs (fragileRoot n)) ∧
    serializeToDocument fragileEnv (.cls n) (fragileRoot n) = some (some (.obj [])) ∧ effortDocument fragileEnv 0 (.cls n) (fragileRoot n) + 7 = 12 * 2 ^ n := by
  refine ⟨fragile_root n, fragile_size n, fragile_addrs n, ?_, ?_⟩
  · rw [serializeToDocument, fragile_members n (fragile_fails n)]
  · have h1 := fragile_effort n [.name (lit "x")]
    have h2 := fragile_effort n [.name (lit "y")]
    rw [effortDocument, fragile_two]
    omega

example : effortDocument fragileEnv 0 (.cls 30) (fragileRoot 30) = 12884901881 ∧ graphSize fragileHeap (fragileRoot 30) (List.range 31) = 154 := by
  obtain ⟨-, h1, -, -, h2⟩ := C109_exponential 30
  exact ⟨by omega, h1⟩

end Verif.Props
