import Verif.Compact
import Verif.Props.ReadWrite

/-!
# C80: the size of documents

Specification: the object graph is the value without the contents of shared objects (`ownNodes`), and for each address the object there.
-/

namespace Verif.Props
open Verif.Core Verif.Numeric Verif.Demo

/-- **C80.** The document has exactly as many nodes as the root and all objects reachable from it have together, each object counted once
however often it is reached: a pointer to a shared object counts two (the reference), and for each object one reference less is written
since the object itself is. -/
theorem C80_nodes_exact (env : Env) (hfair : env.Fair) (H : Heap) (v : Val) (t : Ty) (ht : HasTy env H v t) (hf : finite v = true)
    (as : List Nat) (hnd : as.Nodup) (has : ∀ a, a ∈ as ↔ a ∈ addrs v) :
    ∃ doc, serializeToDocument env t v = some (some doc) ∧ nodes doc + 2 * as.length = ownNodes v + (as.map (ownAt H)).sum := by
  obtain ⟨new, doc, tr, h1, h2, h3⟩ := serOk env hfair H v t [] [] [] ht hf
  refine ⟨doc, by rw [serializeToDocument, h1], ?_⟩
  have hc := counted env H v t [] doc tr h2 ht
  have hall := (h3.all (by intro p hp; cases hp)).2
  have hp : (fulls tr).Perm as := by
    refine (List.perm_ext_iff_of_nodup h3.good.nodup.1 hnd).2 fun a => ?_
    rw [has]
    refine ⟨h3.sub a, fun ha => ?_⟩
    have := hall a ha
    rw [List.append_nil, h3.keys] at this
    simpa using this
  rw [← hp.length_eq, hc]
  congr 1
  exact ownSum_perm H hp

/-- **C80.** So the number of nodes is at most linear in the size of the object graph. -/
theorem C80_linear (env : Env) (hfair : env.Fair) (H : Heap) (v : Val) (t : Ty) (ht : HasTy env H v t) (hf : finite v = true)
    (as : List Nat) (hnd : as.Nodup) (has : ∀ a, a ∈ as ↔ a ∈ addrs v) :
    ∃ doc, serializeToDocument env t v = some (some doc) ∧ nodes doc ≤ ownNodes v + (as.map (ownAt H)).sum := by
  obtain ⟨doc, h1, h2⟩ := C80_nodes_exact env hfair H v t ht hf as hnd has
  exact ⟨doc, h1, by omega⟩

/-! ## Pairs of pointers to the same pair -/

/-- The type of the pairs. -/
def pairTy : Nat → Ty
  | 0 => tInt
  | n + 1 => .tuple [.sptr (pairTy n), .sptr (pairTy n)]

/-- A pair of pointers to the next pair, and so on: `2 ^ n` paths to the number at the end. -/
def pairVal : Nat → Val
  | 0 => .prim (.int 7)
  | n + 1 => .tup [.sptr n (pairVal n), .sptr n (pairVal n)]

/-- The heap with the pairs. -/
def pairHeap : Heap := fun a => some (pairTy a, pairVal a)

theorem pair_typed (env : Env) (n : Nat) : HasTy env pairHeap (pairVal n) (pairTy n) := by
  induction n with
  | zero => simp only [pairVal, pairTy, tInt, HasTy, PrimTy]; decide
  | succ n ih => simp [pairVal, pairTy, HasTy, HasTys, pairHeap, ih]

theorem pair_finite (n : Nat) : finite (pairVal n) = true := by
  induction n with
  | zero => rfl
  | succ n ih => simp [pairVal, finite, finiteAll, ih]

theorem pair_addrs (n a : Nat) : a ∈ List.range n ↔ a ∈ addrs (pairVal n) := by
  induction n with
  | zero => simp [pairVal, addrs]
  | succ n ih =>
    rw [List.mem_range] at ih ⊢
    simp only [pairVal, addrs, addrsAll, List.append_nil, List.cons_append, List.mem_cons, List.mem_append, ← ih]
    omega

theorem pair_sum (n : Nat) : ownNodes (pairVal n) + ((List.range n).map (ownAt pairHeap)).sum = 5 * n + 1 := by
  induction n with
  | zero => rfl
  | succ n ih =>
    rw [List.range_succ, List.map_append, List.sum_append]
    simp only [List.map_cons, List.map_nil, List.sum_cons, List.sum_nil, ownAt, pairHeap]
    rw [show ownNodes (pairVal (n + 1)) = 5 from rfl]
    omega

/-- The same values without sharing. -/
def copyTy : Nat → Ty
  | 0 => tInt
  | n + 1 => .tuple [.uptr (copyTy n), .uptr (copyTy n)]

/-- Each pair has its own copies. -/
def copyVal : Nat → Val
  | 0 => .prim (.int 7)
  | n + 1 => .tup [.uptr (copyVal n), .uptr (copyVal n)]

theorem copy_typed (env : Env) (n : Nat) : HasTy env (fun _ => none) (copyVal n) (copyTy n) ∧ finite (copyVal n) = true ∧ addrs (copyVal n) = [] ∧
    ownNodes (copyVal n) + 1 = 2 ^ (n + 1) := by
  induction n with
  | zero => refine ⟨by simp only [copyVal, copyTy, tInt, HasTy, PrimTy]; decide, rfl, rfl, rfl⟩
  | succ n ih =>
    obtain ⟨h1, h2, h3, h4⟩ := ih
    refine ⟨by simp [copyVal, copyTy, HasTy, HasTys, h1], by simp [copyVal, finite, finiteAll, h2], by simp [copyVal, addrs, addrsAll, h3], ?_⟩
    simp only [copyVal, ownNodes, ownAll]
    rw [Nat.pow_succ]
    omega

/-- **C80.** What sharing is worth: pairs of pointers to pairs of pointers, `n` deep, give a document with `3 n + 1` nodes; with copies in
place of the shared objects it has `2 ^ (n + 1) - 1`. -/
theorem C80_sharing (env : Env) (hfair : env.Fair) (n : Nat) :
    (∃ doc, serializeToDocument env (pairTy n) (pairVal n) = some (some doc) ∧ nodes doc = 3 * n + 1) ∧
    (∃ doc, serializeToDocument env (copyTy n) (copyVal n) = some (some doc) ∧ nodes doc + 1 = 2 ^ (n + 1)) := by
  constructor
  · obtain ⟨doc, h1, h2⟩ := C80_nodes_exact env hfair pairHeap (pairVal n) (pairTy n) (pair_typed env n) (pair_finite n) (List.range n) List.nodup_range (pair_addrs n)
    refine ⟨doc, h1, ?_⟩
    rw [pair_sum, List.length_range] at h2
    omega
  · obtain ⟨h1, h2, h3, h4⟩ := copy_typed env n
    obtain ⟨doc, h5, h6⟩ := C80_nodes_exact env hfair (fun _ => none) (copyVal n) (copyTy n) h1 h2 [] List.nodup_nil (by simp [h3])
    refine ⟨doc, h5, ?_⟩
    simp only [List.length_nil, List.map_nil, List.sum_nil] at h6
    omega

example : ∃ doc, serializeToDocument Demo.env (pairTy 2) (pairVal 2) = some (some doc) ∧ nodes doc = 7 := (C80_sharing Demo.env Demo.fair 2).1
example : serializeToDocument Demo.env (pairTy 2) (pairVal 2) = some (some (.arr [.arr [.num (.int 7), .obj [(lit "$ref", .str (lit "/0/0"))]],
    .obj [(lit "$ref", .str (lit "/0"))]])) := rfl

example : nodes (.arr [.arr [.num (.int 7), .obj [(lit "$ref", .str (lit "/0/0"))]], .obj [(lit "$ref", .str (lit "/0"))]]) ≤ 11 := by
  obtain ⟨doc, h1, h2⟩ := C80_linear Demo.env Demo.fair pairHeap (pairVal 2) (pairTy 2) (pair_typed _ 2) (pair_finite 2) [0, 1] (by decide) (by
    intro a
    rw [← pair_addrs]
    simp
    omega)
  cases h1
  exact h2

/-! ## Characters -/

mutual
/-- The number of characters in the strings of a document, without keys. -/
def letters : Json → Nat
  | .str s => s.length
  | .arr js => lettersAll js
  | .obj ms => lettersFields ms
  | _ => 0

/-- `letters` for elements. -/
def lettersAll : List Json → Nat
  | [] => 0
  | j :: js => letters j + lettersAll js

/-- `letters` for members. -/
def lettersFields : List (Str × Json) → Nat
  | [] => 0
  | (_, j) :: ms => letters j + lettersFields ms
end

/-- Vectors in vectors. -/
def nestTy : Nat → Ty → Ty
  | 0, t => t
  | n + 1, t => .vec (nestTy n t)

/-- Vectors with one element. -/
def nestVal : Nat → Val → Val
  | 0, v => v
  | n + 1, v => .seq [nestVal n v]

/-- Arrays with one element. -/
def nestDoc : Nat → Json → Json
  | 0, j => j
  | n + 1, j => .arr [nestDoc n j]

/-- A shared number in `n` vectors, and `n` more pointers to it. -/
def deepVal (n : Nat) : Val := .tup [nestVal n (.sptr 1 (.prim (.int 7))), .seq (List.replicate n (.sptr 1 (.prim (.int 7))))]

/-- The type of `deepVal`. -/
def deepTy (n : Nat) : Ty := .tuple [nestTy n (.sptr tInt), .vec (.sptr tInt)]

theorem ser_nest (env : Env) (n : Nat) (segs : List Seg) :
    ser env (nestVal n (.sptr 1 (.prim (.int 7)))) (nestTy n (.sptr tInt)) segs [] = .done [(1, List.replicate n (.index 0) ++ segs)] (some (nestDoc n (.num (.int 7)))) := by
  induction n generalizing segs with
  | zero => rfl
  | succ n ih =>
    rw [nestVal, nestTy, ser]
    simp only [List.length_cons, List.length_nil, List.replicate_succ, List.replicate_zero, serItems, ih]
    have : List.replicate n (Seg.index 0) ++ Seg.index 0 :: segs = Seg.index 0 :: (List.replicate n (Seg.index 0) ++ segs) := by
      rw [← List.cons_append, ← List.replicate_succ, List.replicate_succ', List.append_assoc]
      rfl
    rw [this]
    rfl

theorem ser_refs (env : Env) (n k : Nat) (segs s : List Seg) :
    serItems env (List.replicate n (.sptr 1 (.prim (.int 7)))) (List.replicate n (.sptr tInt)) k segs [(1, s)] =
      .done [(1, s)] (some (List.replicate n (.obj [(lit "$ref", .str (pathStr s))]))) := by
  induction n generalizing k with
  | zero => rfl
  | succ n ih =>
    have h : ser env (.sptr 1 (.prim (.int 7))) (.sptr tInt) (.index k :: segs) [(1, s)] = .done [(1, s)] (some (.obj [(lit "$ref", .str (pathStr s))])) := rfl
    simp only [List.replicate_succ, serItems, h, ih]
    rfl

theorem path_length (n : Nat) : (pathStr (List.replicate n (.index 0) ++ [.index 0])).length = 2 * (n + 1) := by
  have h1 : List.replicate n (Seg.index 0) ++ [.index 0] = List.replicate (n + 1) (.index 0) := List.replicate_succ'.symm
  rw [h1, pathStr, if_neg (by simp)]
  rw [List.reverse_replicate, segsText, List.map_replicate, List.length_flatten, List.map_replicate, List.sum_replicate]
  rw [show (segText (Seg.index 0)).length = 2 from rfl]
  exact Nat.mul_comm _ _

theorem letters_nest (n : Nat) : letters (nestDoc n (.num (.int 7))) = 0 := by
  induction n with
  | zero => rfl
  | succ n ih => simp [nestDoc, letters, lettersAll, ih]

theorem letters_replicate (n : Nat) (p : Str) : lettersAll (List.replicate n (.obj [(lit "$ref", .str p)])) = n * p.length := by
  induction n with
  | zero => simp [lettersAll]
  | succ n ih => simp only [List.replicate_succ, lettersAll, ih, letters, lettersFields, Nat.succ_mul]; omega

/-- **C80, negation for characters.** The number of characters is not linear in the size of the graph: each reference spells the whole path.
A graph with less than `3 n + 6` nodes, and `2 n (n + 1)` characters in the paths of its document. -/
theorem C80_paths_quadratic (env : Env) (n : Nat) : ∃ doc, serializeToDocument env (deepTy n) (deepVal n) = some (some doc) ∧
    letters doc = 2 * n * (n + 1) ∧ addrs (deepVal n) = List.replicate (n + 1) 1 ∧ ownNodes (deepVal n) = 3 * n + 4 := by
  refine ⟨.arr [nestDoc n (.num (.int 7)), .arr (List.replicate n (.obj [(lit "$ref", .str (pathStr (List.replicate n (.index 0) ++ [.index 0])))]))], ?_, ?_, ?_, ?_⟩
  · rw [serializeToDocument, deepVal, deepTy, ser]
    simp only [serItems, ser_nest, ser, List.length_replicate, ser_refs]
    rfl
  · simp only [letters, lettersAll, letters_nest, letters_replicate, path_length]
    rw [Nat.zero_add, Nat.add_zero, ← Nat.mul_assoc, Nat.mul_comm n 2]
  · have h1 : addrs (nestVal n (.sptr 1 (.prim (.int 7)))) = [1] := by
      clear env
      induction n with
      | zero => rfl
      | succ n ih => simp [nestVal, addrs, addrsAll, ih]
    have h2 : ∀ n, addrsAll (List.replicate n (.sptr 1 (.prim (.int 7)))) = List.replicate n 1 := by
      intro n
      induction n with
      | zero => rfl
      | succ n ih => simp [List.replicate_succ, addrs, addrsAll, ih]
    simp [deepVal, addrs, addrsAll, h1, h2, List.replicate_succ]
  · have h1 : ownNodes (nestVal n (.sptr 1 (.prim (.int 7)))) = n + 2 := by
      clear env
      induction n with
      | zero => rfl
      | succ n ih => simp only [nestVal, ownNodes, ownAll, ih]; omega
    have h2 : ∀ n, ownAll (List.replicate n (.sptr 1 (.prim (.int 7)))) = 2 * n := by
      intro n
      induction n with
      | zero => rfl
      | succ n ih => simp only [List.replicate_succ, ownNodes, ownAll, ih]; omega
    simp only [deepVal, ownNodes, ownAll, h1, h2]
    omega

example : serializeToDocument Demo.env (deepTy 2) (deepVal 2) = some (some (.arr [.arr [.arr [.num (.int 7)]],
    .arr [.obj [(lit "$ref", .str (lit "/0/0/0"))], .obj [(lit "$ref", .str (lit "/0/0/0"))]]])) := rfl

end Verif.Props
