import Verif.PolyStack

/-!
# Properties C23, C24: the handler stack

Specification: a plain list of live objects, most recent first.
-/

namespace Verif.Props
open Verif.PolyStack

namespace StackSpec

/-- Bytes used by the live objects. -/
def total : List Obj → Nat
  | [] => 0
  | o :: r => o.size + total r

/-- When there is no room for one more object. -/
def full (capacity memorySize : Nat) (live : List Obj) (o : Obj) : Bool :=
  decide (capacity ≤ live.length) || decide ((memorySize : Int) - o.align - o.size ≤ total live)

/-- The abstract stack: live objects, destroyed objects in order, outcome. -/
def step (capacity memorySize : Nat) (live destroyed : List Obj) : Op → List Obj × List Obj × Out
  | .emplace o =>
      if full capacity memorySize live o then (live, destroyed, .threw)
      else (o :: live, destroyed, .ok)
  | .pop =>
      match live with
      | [] => ([], destroyed, .threw)
      | o :: r => (r, destroyed ++ [o], .ok)
  | .emplaceThrowing _ => (live, destroyed, .threw)

/-- A history. -/
def run (capacity memorySize : Nat) : List Op → List Obj → List Obj → List Obj × List Obj × List Out
  | [], live, destroyed => (live, destroyed, [])
  | op :: ops, live, destroyed =>
      let (live1, d1, o) := step capacity memorySize live destroyed op
      let (live2, d2, os) := run capacity memorySize ops live1 d1
      (live2, d2, o :: os)

end StackSpec

open StackSpec

/-- `sizeof` is positive, and no constructor throws. -/
def GoodOp : Op → Prop
  | .emplace o => 0 < o.size
  | .pop => True
  | .emplaceThrowing _ => False

/-- Offset of the top object. -/
def topOffset : List Obj → Option Nat
  | [] => none
  | _ :: r => some (total r)

/-- Saved pointers and constructed objects agree with the list of live objects. -/
def Layout (s : State) : List Obj → Prop
  | [] => True
  | o :: r => s.items[r.length]? = some (topOffset r) ∧ s.mem (total r) = some o ∧ 0 < o.size ∧ Layout s r

/-- Refinement relation. -/
structure Rel (capacity : Nat) (s : State) (live destroyed : List Obj) : Prop where
  count : s.count = live.length
  cur : s.current = topOffset live
  next : s.next = total live
  len : s.items.length = capacity
  bound : live.length ≤ capacity
  layout : Layout s live
  log : s.log = destroyed.map some

theorem layout_mono {s s' : State} (live : List Obj) (n m : Nat)
    (hn : live.length ≤ n) (hm : total live ≤ m)
    (hi : ∀ k, k < n → s'.items[k]? = s.items[k]?)
    (hmem : ∀ a, a < m → s'.mem a = s.mem a) (h : Layout s live) : Layout s' live := by
  induction live with
  | nil => trivial
  | cons o r ih =>
    obtain ⟨h1, h2, h3, h4⟩ := h
    simp only [List.length_cons] at hn
    simp only [total] at hm
    refine ⟨?_, ?_, h3, ih (by omega) (by omega) h4⟩
    · rw [hi _ (by omega)]; exact h1
    · rw [hmem _ (by omega)]; exact h2

theorem rel_emplace {capacity memorySize : Nat} {s : State} {live destroyed : List Obj}
    (R : Rel capacity s live destroyed) (o : Obj) (ho : 0 < o.size) :
    Rel capacity (emplace capacity memorySize s o).1 (StackSpec.step capacity memorySize live destroyed (.emplace o)).1
      (StackSpec.step capacity memorySize live destroyed (.emplace o)).2.1 ∧
    (emplace capacity memorySize s o).2 = (StackSpec.step capacity memorySize live destroyed (.emplace o)).2.2 := by
  have hfull : exhausted capacity memorySize s o = full capacity memorySize live o := by
    unfold exhausted full
    rw [R.count, R.next]
  unfold emplace StackSpec.step
  simp only [hfull]
  by_cases hf : full capacity memorySize live o = true
  · simp only [hf, if_true]; exact ⟨R, trivial⟩
  · simp only [hf, Bool.false_eq_true, if_false]
    have hlt : live.length < capacity := by
      unfold full at hf
      simp only [Bool.or_eq_true, decide_eq_true_eq, not_or] at hf
      omega
    refine ⟨?_, trivial⟩
    constructor
    · simp [R.count]
    · simp [topOffset, R.next]
    · simp only [total, R.next]; omega
    · simp [R.len]
    · simp only [List.length_cons]; omega
    · refine ⟨?_, ?_, ho, ?_⟩
      · simp only
        rw [R.count, List.getElem?_set_self (by rw [R.len]; exact hlt), R.cur]
      · simp [R.next]
      · apply layout_mono (s := s) live live.length (total live) (Nat.le_refl _) (Nat.le_refl _) _ _ R.layout
        · intro k hk
          simp only
          rw [R.count, List.getElem?_set_ne (by omega)]
        · intro a ha
          simp only
          rw [if_neg (by rw [R.next]; omega)]
    · exact R.log

theorem rel_popUnsafe {capacity : Nat} {s : State} {o : Obj} {r destroyed : List Obj}
    (R : Rel capacity s (o :: r) destroyed) : Rel capacity (popUnsafe s) r (destroyed ++ [o]) := by
  obtain ⟨h1, h2, h3, h4⟩ := R.layout
  have hc : s.count - 1 = r.length := by rw [R.count]; simp
  have hcur : s.current = some (total r) := R.cur
  have hb : r.length < capacity := by have := R.bound; simp only [List.length_cons] at this; omega
  constructor
  · simp [popUnsafe, hc]
  · simp only [popUnsafe, hc, h1, Option.getD_some]
  · simp [popUnsafe, hcur]
  · simp [popUnsafe, R.len]
  · omega
  · apply layout_mono (s := s) r r.length (total r) (Nat.le_refl _) (Nat.le_refl _) _ _ h4
    · intro k hk
      simp only [popUnsafe, hc]
      rw [List.getElem?_set_ne (by omega)]
    · intro a ha
      simp only [popUnsafe, hcur]
      rw [if_neg (by simp; omega)]
  · simp only [popUnsafe, hcur, Option.bind_some, h2, R.log, List.map_append, List.map_cons, List.map_nil]

theorem rel_step {capacity memorySize : Nat} {s : State} {live destroyed : List Obj}
    (R : Rel capacity s live destroyed) (op : Op) (hop : GoodOp op) :
    Rel capacity (PolyStack.step capacity memorySize s op).1
      (StackSpec.step capacity memorySize live destroyed op).1
      (StackSpec.step capacity memorySize live destroyed op).2.1 ∧
    (PolyStack.step capacity memorySize s op).2 =
      (StackSpec.step capacity memorySize live destroyed op).2.2 := by
  cases op with
  | emplace o => exact rel_emplace R o hop
  | pop =>
    simp only [PolyStack.step, pop, StackSpec.step]
    cases live with
    | nil =>
      have : s.count = 0 := by simpa using R.count
      simp only [this, if_true]; exact ⟨R, trivial⟩
    | cons o r =>
      have : s.count ≠ 0 := by rw [R.count]; simp
      simp only [this, if_false]; exact ⟨rel_popUnsafe R, trivial⟩
  | emplaceThrowing o => exact absurd hop id

theorem rel_run {capacity memorySize : Nat} (ops : List Op) (hops : ∀ op ∈ ops, GoodOp op) {s : State}
    {live destroyed : List Obj} (R : Rel capacity s live destroyed) :
    Rel capacity (PolyStack.run capacity memorySize ops s).1
      (StackSpec.run capacity memorySize ops live destroyed).1
      (StackSpec.run capacity memorySize ops live destroyed).2.1 ∧
    (PolyStack.run capacity memorySize ops s).2 =
      (StackSpec.run capacity memorySize ops live destroyed).2.2 := by
  induction ops generalizing s live destroyed with
  | nil => exact ⟨R, rfl⟩
  | cons op ops ih =>
    obtain ⟨R1, ho⟩ := rel_step (memorySize := memorySize) R op (hops op (by simp))
    obtain ⟨R2, hos⟩ := ih (fun op hop => hops op (by simp [hop])) R1
    simp only [PolyStack.run, StackSpec.run]
    exact ⟨R2, by rw [ho, hos]⟩

theorem rel_init (capacity : Nat) : Rel capacity (init capacity) [] [] := by
  constructor <;> simp [init, topOffset, total, Layout]

/-- Offset, size pairs of the live objects as laid out in memory. -/
def placement : List Obj → List (Nat × Obj)
  | [] => []
  | o :: r => (total r, o) :: placement r

theorem placement_snd (live : List Obj) : (placement live).map (·.2) = live := by
  induction live with
  | nil => rfl
  | cons o r ih => simp [placement, ih]

theorem placement_lt (live : List Obj) : ∀ p ∈ placement live, p.1 + p.2.size ≤ total live := by
  induction live with
  | nil => simp [placement]
  | cons o r ih =>
    intro p hp
    simp only [placement, List.mem_cons] at hp
    simp only [total]
    rcases hp with rfl | hp
    · simp only; omega
    · have := ih p hp; omega

theorem layout_placement {s : State} (live : List Obj) (h : Layout s live) :
    ∀ p ∈ placement live, s.mem p.1 = some p.2 := by
  induction live with
  | nil => simp [placement]
  | cons o r ih =>
    obtain ⟨_, h2, _, h4⟩ := h
    intro p hp
    simp only [placement, List.mem_cons] at hp
    rcases hp with rfl | hp
    · exact h2
    · exact ih h4 p hp

/-- **C23, C24.** Any history of operations behaves like the abstract list of live objects: same
outcomes, same order of destructions, `back` is the most recent live object (in particular a
rejected operation changes nothing, and it is rejected exactly when the stack is full or empty). -/
theorem C23_stack_refines_list (capacity memorySize : Nat) (ops : List Op) (hops : ∀ op ∈ ops, GoodOp op) :
    let r := PolyStack.run capacity memorySize ops (init capacity)
    let a := StackSpec.run capacity memorySize ops [] []
    r.2 = a.2.2 ∧ r.1.log = a.2.1.map some ∧ back r.1 = a.1.head? := by
  obtain ⟨R, h⟩ := rel_run (memorySize := memorySize) ops hops (rel_init capacity)
  refine ⟨h, R.log, ?_⟩
  unfold back
  rw [R.cur]
  cases hl : (StackSpec.run capacity memorySize ops [] []).1 with
  | nil => simp [topOffset]
  | cons o r =>
    have := R.layout
    rw [hl] at this
    simpa [topOffset] using this.2.1

/-- Example history: two handlers, one popped, a third one. -/
def demoOps : List Op := [.emplace ⟨1, 24, 8⟩, .emplace ⟨2, 40, 8⟩, .pop, .emplace ⟨3, 16, 8⟩]

theorem demoOps_good : ∀ op ∈ demoOps, GoodOp op := by simp [demoOps, GoodOp]

example : back (PolyStack.run 128 4096 demoOps (init 128)).1 = some ⟨3, 16, 8⟩ :=
  (C23_stack_refines_list 128 4096 demoOps demoOps_good).2.2

theorem run_fits (capacity memorySize : Nat) (ops : List Op) (hops : ∀ op ∈ ops, GoodOp op)
    (live destroyed : List Obj) (h : live = [] ∨ ∃ o r, live = o :: r ∧ total live < memorySize) :
    (StackSpec.run capacity memorySize ops live destroyed).1 = [] ∨
      total (StackSpec.run capacity memorySize ops live destroyed).1 < memorySize := by
  induction ops generalizing live destroyed with
  | nil =>
    rcases h with h | ⟨_, _, _, h⟩
    · exact Or.inl h
    · exact Or.inr h
  | cons op ops ih =>
    simp only [StackSpec.run]
    apply ih (fun op hop => hops op (by simp [hop]))
    cases op with
    | emplace o =>
      simp only [StackSpec.step]
      split
      · exact h
      · rename_i hf
        refine Or.inr ⟨o, live, rfl, ?_⟩
        unfold full at hf
        simp only [Bool.or_eq_true, decide_eq_true_eq, not_or] at hf
        simp only [total]; omega
    | pop =>
      cases live with
      | nil => exact Or.inl rfl
      | cons o r =>
        simp only [StackSpec.step]
        cases r with
        | nil => exact Or.inl rfl
        | cons o' r' =>
          refine Or.inr ⟨o', r', rfl, ?_⟩
          rcases h with h | ⟨_, _, _, h⟩
          · cases h
          · simp only [total] at h ⊢; omega
    | emplaceThrowing o => exact absurd (hops (.emplaceThrowing o) (by simp)) id

theorem placement_disjoint (live : List Obj) :
    (placement live).Pairwise (fun p q => q.1 + q.2.size ≤ p.1) := by
  induction live with
  | nil => simp [placement]
  | cons o r ih =>
    rw [placement, List.pairwise_cons]
    exact ⟨fun q hq => placement_lt r q hq, ih⟩

theorem total_dvd (A : Nat) (live : List Obj) (h : ∀ o ∈ live, A ∣ o.size) : A ∣ total live := by
  induction live with
  | nil => exact ⟨0, rfl⟩
  | cons o r ih =>
    simp only [total]
    exact Nat.dvd_add (h o (by simp)) (ih (fun o ho => h o (by simp [ho])))

theorem run_live_mem (capacity memorySize : Nat) (P : Obj → Prop) (ops : List Op)
    (hops : ∀ o, Op.emplace o ∈ ops → P o) (live destroyed : List Obj) (hl : ∀ o ∈ live, P o) :
    ∀ o ∈ (StackSpec.run capacity memorySize ops live destroyed).1, P o := by
  induction ops generalizing live destroyed with
  | nil => exact hl
  | cons op ops ih =>
    simp only [StackSpec.run]
    apply ih (fun o ho => hops o (by simp [ho]))
    intro o ho
    cases op with
    | emplace o' =>
      simp only [StackSpec.step] at ho
      split at ho
      · exact hl o ho
      · rcases List.mem_cons.1 ho with rfl | ho
        · exact hops o (by simp)
        · exact hl o ho
    | pop =>
      cases live with
      | nil => simp [StackSpec.step] at ho
      | cons o' r => simp only [StackSpec.step] at ho; exact hl o (by simp [ho])
    | emplaceThrowing o' => exact hl o ho

/-- **C23.** After any history the live objects lie in the stack's memory at pairwise disjoint ranges
inside the buffer, and each is where the bookkeeping says. -/
theorem C23_live_objects_disjoint_in_bounds (capacity memorySize : Nat) (ops : List Op)
    (hops : ∀ op ∈ ops, GoodOp op) :
    let s := (PolyStack.run capacity memorySize ops (init capacity)).1
    let live := (StackSpec.run capacity memorySize ops [] []).1
    ∃ place : List (Nat × Obj), place.map (·.2) = live ∧
      (∀ p ∈ place, s.mem p.1 = some p.2 ∧ p.1 + p.2.size ≤ memorySize) ∧
      place.Pairwise (fun p q => p.1 + p.2.size ≤ q.1 ∨ q.1 + q.2.size ≤ p.1) := by
  obtain ⟨R, -⟩ := rel_run (memorySize := memorySize) ops hops (rel_init capacity)
  refine ⟨placement (StackSpec.run capacity memorySize ops [] []).1, ?_, ?_, ?_⟩
  · exact placement_snd _
  · intro p hp
    refine ⟨layout_placement _ R.layout p hp, ?_⟩
    have := placement_lt _ p hp
    rcases run_fits capacity memorySize ops hops [] [] (Or.inl rfl) with h | h
    · rw [h] at hp; simp [placement] at hp
    · omega
  · exact (placement_disjoint _).imp (fun h => Or.inr h)

example : (PolyStack.run 128 4096 demoOps (init 128)).1.mem 24 = some ⟨3, 16, 8⟩ ∧
    (PolyStack.run 128 4096 demoOps (init 128)).1.mem 0 = some ⟨1, 24, 8⟩ := by decide +kernel

/-- **C23.** If the buffer starts at an address that is a multiple of `A`, object sizes are multiples
of `A` and alignments divide `A` (for handlers `A` is the alignment of a pointer: they all have a
virtual table pointer), then every live object is suitably aligned. -/
theorem C23_live_objects_aligned (capacity memorySize A base : Nat) (ops : List Op)
    (hops : ∀ op ∈ ops, GoodOp op)
    (hsize : ∀ o, Op.emplace o ∈ ops → A ∣ o.size ∧ o.align ∣ A) (hbase : A ∣ base) :
    let s := (PolyStack.run capacity memorySize ops (init capacity)).1
    let live := (StackSpec.run capacity memorySize ops [] []).1
    ∃ place : List (Nat × Obj), place.map (·.2) = live ∧
      ∀ p ∈ place, s.mem p.1 = some p.2 ∧ p.2.align ∣ base + p.1 := by
  obtain ⟨R, -⟩ := rel_run (memorySize := memorySize) ops hops (rel_init capacity)
  have hall := run_live_mem capacity memorySize (fun o => A ∣ o.size ∧ o.align ∣ A) ops hsize [] [] (by simp)
  refine ⟨placement (StackSpec.run capacity memorySize ops [] []).1, placement_snd _, fun p hp =>
    ⟨layout_placement _ R.layout p hp, ?_⟩⟩
  generalize (StackSpec.run capacity memorySize ops [] []).1 = live at *
  clear R
  induction live with
  | nil => simp [placement] at hp
  | cons o r ih =>
    rcases List.mem_cons.1 hp with rfl | hp
    · exact Nat.dvd_trans (hall o (by simp)).2
        (Nat.dvd_add hbase (total_dvd A r (fun x hx => (hall x (by simp [hx])).1)))
    · exact ih (fun x hx => hall x (by simp [hx])) hp

example : ∃ place : List (Nat × Obj), place.map (·.2) = [⟨3, 16, 8⟩, ⟨1, 24, 8⟩] ∧
    ∀ p ∈ place, (PolyStack.run 128 4096 demoOps (init 128)).1.mem p.1 = some p.2 ∧ p.2.align ∣ 4096 + p.1 :=
  C23_live_objects_aligned 128 4096 8 4096 demoOps demoOps_good
    (by
      intro o ho
      simp only [demoOps, List.mem_cons, Op.emplace.injEq, reduceCtorEq, List.not_mem_nil, false_or, or_false] at ho
      rcases ho with rfl | rfl | rfl <;> decide)
    ⟨512, rfl⟩

/-- Objects whose construction succeeded, in order. -/
def constructed : List Op → List Out → List Obj
  | .emplace o :: ops, .ok :: outs => o :: constructed ops outs
  | _ :: ops, _ :: outs => constructed ops outs
  | _, _ => []

theorem destroyLoop_rel {capacity : Nat} (live : List Obj) {s : State} {destroyed : List Obj}
    (R : Rel capacity s live destroyed) :
    (destroyLoop live.length s).log = (destroyed ++ live).map some ∧ (destroyLoop live.length s).count = 0 := by
  induction live generalizing s destroyed with
  | nil => simp [destroyLoop, R.log, R.count]
  | cons o r ih =>
    have := ih (rel_popUnsafe R)
    simp only [List.length_cons, destroyLoop]
    simpa using this

theorem run_perm (capacity memorySize : Nat) (ops : List Op) (hops : ∀ op ∈ ops, GoodOp op)
    (live destroyed : List Obj) :
    ((StackSpec.run capacity memorySize ops live destroyed).2.1 ++
      (StackSpec.run capacity memorySize ops live destroyed).1).Perm
      (destroyed ++ live ++ constructed ops (StackSpec.run capacity memorySize ops live destroyed).2.2) := by
  induction ops generalizing live destroyed with
  | nil => simp [StackSpec.run, constructed]
  | cons op ops ih =>
    have ih' := fun l d => ih (fun op hop => hops op (by simp [hop])) l d
    simp only [StackSpec.run]
    cases op with
    | emplace o =>
      simp only [StackSpec.step]
      split
      · simpa [constructed] using ih' live destroyed
      · refine (ih' (o :: live) destroyed).trans ?_
        simp only [constructed, List.append_assoc]
        refine List.Perm.append_left _ ?_
        simp only [List.cons_append]
        exact List.perm_middle.symm
    | pop =>
      cases live with
      | nil => simpa [StackSpec.step, constructed] using ih' [] destroyed
      | cons o r =>
        simp only [StackSpec.step, constructed]
        simpa using ih' r (destroyed ++ [o])
    | emplaceThrowing o => exact absurd (hops (.emplaceThrowing o) (by simp)) id

/-- **C24, partial** (constructors do not throw). Over any history followed by the destruction of the
stack, the destructor calls are exactly the constructed objects, each once: `log` is a permutation of
the constructed objects, and contains no bogus destruction (`none`). -/
theorem C24_destroyed_exactly_once_partial (capacity memorySize : Nat) (ops : List Op)
    (hops : ∀ op ∈ ops, GoodOp op) :
    let r := PolyStack.run capacity memorySize ops (init capacity)
    (destroy r.1).log.Perm ((constructed ops r.2).map some) ∧ (destroy r.1).count = 0 := by
  obtain ⟨R, ho⟩ := rel_run (memorySize := memorySize) ops hops (rel_init capacity)
  have hd := destroyLoop_rel _ R
  simp only
  unfold destroy
  rw [R.count, ho, hd.1]
  refine ⟨?_, hd.2⟩
  have := run_perm capacity memorySize ops hops [] []
  simpa using this.map some

example : (destroy (PolyStack.run 128 4096 demoOps (init 128)).1).log
    = [some ⟨2, 40, 8⟩, some ⟨3, 16, 8⟩, some ⟨1, 24, 8⟩] := by decide +kernel

/-- **C24, full statement refuted.** If the constructor of the object being emplaced throws, `count`
has been incremented already; the destructor of the stack then destroys the object below twice
(the second destruction finds no live object). -/
theorem C24_throwing_constructor_double_destroy :
    ∃ ops : List Op, (destroy (PolyStack.run 128 4096 ops (init 128)).1).log = [some ⟨1, 24, 8⟩, none] :=
  ⟨[.emplace ⟨1, 24, 8⟩, .emplaceThrowing ⟨2, 40, 8⟩], by decide +kernel⟩

/-- **C24.** The abstract stack destroys in reverse order of construction: after pushing `objs` one by
one (room permitting) the destructor destroys them last to first. -/
theorem C24_reverse_order (capacity memorySize : Nat) (objs : List Obj) (hpos : ∀ o ∈ objs, 0 < o.size)
    (hcap : objs.length ≤ capacity)
    (hroom : ∀ o ∈ objs, total objs + o.align < memorySize) :
    (destroy (PolyStack.run capacity memorySize (objs.map .emplace) (init capacity)).1).log
      = objs.reverse.map some := by
  have hops : ∀ op ∈ objs.map Op.emplace, GoodOp op := by
    intro op hop
    obtain ⟨o, ho, rfl⟩ := List.mem_map.1 hop
    exact hpos o ho
  obtain ⟨R, -⟩ := rel_run (memorySize := memorySize) _ hops (rel_init capacity)
  have key : ∀ (objs live : List Obj), objs.length + live.length ≤ capacity →
      (∀ o ∈ objs, total objs + total live + o.align < memorySize) →
      StackSpec.run capacity memorySize (objs.map Op.emplace) live [] =
        (objs.reverse ++ live, [], objs.map fun _ => .ok) := by
    intro objs
    induction objs with
    | nil => intro live _ _; rfl
    | cons o objs ih =>
      intro live hc hr
      have hr0 := hr o (by simp)
      simp only [total] at hr0
      simp only [List.length_cons] at hc
      have hf : full capacity memorySize live o = false := by
        simp only [full, Bool.or_eq_false_iff, decide_eq_false_iff_not]
        omega
      have := ih (o :: live) (by simp only [List.length_cons]; omega) (by
        intro x hx
        have := hr x (by simp [hx])
        simp only [total] at this ⊢
        omega)
      simp only [List.map_cons, StackSpec.run, StackSpec.step, hf, Bool.false_eq_true, if_false, this]
      simp
  have hk := key objs [] (by simpa using hcap) (by simpa [total] using hroom)
  rw [hk] at R
  have hd := (destroyLoop_rel _ R).1
  unfold destroy
  rw [R.count, hd]
  simp

example : (destroy (PolyStack.run 128 4096 [.emplace ⟨1, 24, 8⟩, .emplace ⟨2, 40, 8⟩] (init 128)).1).log
    = [some ⟨2, 40, 8⟩, some ⟨1, 24, 8⟩] :=
  C24_reverse_order 128 4096 [⟨1, 24, 8⟩, ⟨2, 40, 8⟩] (by decide) (by decide) (by decide)

end Verif.Props
