import Verif.Replace
import Verif.Lend
import Verif.Props.OneAddress
import Verif.Props.Edit

/-!
# C108: a shared object is written once

`Serializer<std::shared_ptr<T>>` and `JsonWriter<std::shared_ptr<T>>` (serialize_pointer.hpp, write_pointer.hpp) write the content of an object where it is met first, and a
reference wherever it is met again. When the content of the object changes, the document changes at one node.
-/

namespace Verif.Props
open Verif.Core Verif.Numeric Verif.Demo

/-- At one place, `x` is written for the content `va`, and `y` for the content `vb`. -/
def Contents (env : Env) (t : Ty) (va vb : Val) (x y : Json) : Prop :=
  ∃ segs, ser env va t segs [] = .done [] (some x) ∧ ser env vb t segs [] = .done [] (some y)

/-- A content without shared objects can be written everywhere, and what is written does not depend on what was written before. -/
theorem content_written (env : Env) (hfair : env.Fair) (t : Ty) (v : Val) (ht : HasTy env (fun _ => none) v t) (hf : finite v = true) (segs : List Seg) :
    ∃ x, ser env v t segs [] = .done [] (some x) ∧ ∀ σ, ser env v t segs σ = .done σ (some x) := by
  have hno : addrs v = [] := typed_noaddr env v t ht
  obtain ⟨new, x, tr, h1, h2, h3⟩ := serOk env hfair _ v t segs [] [] ht hf
  have hnew := (h3.noaddr (segs' := []) (pos' := []) (res' := fun _ => none)).1 hno
  subst hnew
  obtain ⟨r, hr⟩ := ser_alone env v hno t
  have h4 := hr segs []
  rw [h1] at h4
  refine ⟨x, h1, fun σ => ?_⟩
  rw [hr]
  match h5 : r segs with
  | none => rw [h5] at h4; cases h4
  | some none => rw [h5] at h4; cases h4
  | some (some y) =>
    rw [h5] at h4
    cases h4
    rfl

theorem contents_written (env : Env) (hfair : env.Fair) (t : Ty) (va vb : Val) (hta : HasTy env (fun _ => none) va t) (hfa : finite va = true)
    (htb : HasTy env (fun _ => none) vb t) (hfb : finite vb = true) (segs : List Seg) (σ : STab) :
    ∃ x y, ser env va t segs σ = .done σ (some x) ∧ ser env vb t segs σ = .done σ (some y) ∧ Contents env t va vb x y := by
  obtain ⟨x, h1, h2⟩ := content_written env hfair t va hta hfa segs
  obtain ⟨y, h3, h4⟩ := content_written env hfair t vb htb hfb segs
  exact ⟨x, y, h2 σ, h4 σ, segs, h1, h3⟩

/-- **C108.** The object at the address `a` gets another content, which has no shared objects, as the old one had none. However often the value refers to the object: a value
that was written is written again, and the new document is the old one but for one node at most, where the new content stands in the place of the old one. The value may have
other shared objects, and members that fail and are left out. -/
theorem C108_document (env : Env) (hfair : env.Fair) (H : Heap) (a : Nat) (t0 : Ty) (va vb : Val) (hH : H a = some (t0, va))
    (hta : HasTy env (fun _ => none) va t0) (hfa : finite va = true) (htb : HasTy env (fun _ => none) vb t0) (hfb : finite vb = true)
    (t : Ty) (v : Val) (ht : HasTy env H v t) (j : Json) (h : serializeToDocument env t v = some (some j)) :
    ∃ j', serializeToDocument env t (Val.refill a vb v) = some (some j') ∧ (j' = j ∨ OneNode (Contents env t0 va vb) j j') := by
  have hb := ser_beside env H a False t0 va vb (Contents env t0 va vb) hH (contents_written env hfair t0 va vb hta hfa htb hfb) v t ht nofun [] []
  unfold serializeToDocument at h ⊢
  revert h
  revert hb
  generalize ser env v t [] [] = r
  generalize ser env (Val.refill a vb v) t [] [] = r'
  rintro (_ | ⟨τ, _, _⟩ | ⟨τ, x, _, _⟩ | ⟨τ, x, y, _, _, hd⟩) h
  · cases h
  · cases h
  · cases h; exact ⟨_, rfl, .inl rfl⟩
  · cases h; exact ⟨_, rfl, .inr hd⟩

example (m : Int) (hm : int32.InRange m) : ∃ j', serializeToDocument Demo.env (.vec (.sptr tInt)) (.seq [.sptr 2 (.prim (.int m)), .sptr 2 (.prim (.int m))]) = some (some j') ∧
    (j' = .arr [.num (.int 7), dirDoc [(lit "$ref", lit "/0")]] ∨
      OneNode (Contents Demo.env tInt (.prim (.int 7)) (.prim (.int m))) (.arr [.num (.int 7), dirDoc [(lit "$ref", lit "/0")]]) j') :=
  C108_document Demo.env fair (fun _ => some (tInt, .prim (.int 7))) 2 tInt (.prim (.int 7)) (.prim (.int m)) rfl (by decide : int32.InRange 7) rfl hm rfl
    (.vec (.sptr tInt)) (.seq [.sptr 2 (.prim (.int 7)), .sptr 2 (.prim (.int 7))]) ⟨⟨rfl, (by decide : int32.InRange 7)⟩, ⟨rfl, (by decide : int32.InRange 7)⟩, trivial⟩ _
    (by with_unfolding_all rfl)

/-- **C108, which of the two.** In a value where everything can be written: if the value refers to the object, exactly one node is replaced, whatever the number of pointers; if it does
not, the document stays as it is. -/
theorem C108_exact (env : Env) (hfair : env.Fair) (H : Heap) (a : Nat) (t0 : Ty) (va vb : Val) (hH : H a = some (t0, va))
    (hta : HasTy env (fun _ => none) va t0) (hfa : finite va = true) (htb : HasTy env (fun _ => none) vb t0) (hfb : finite vb = true)
    (t : Ty) (v : Val) (ht : HasTy env H v t) (hf : finite v = true) :
    ∃ j j', serializeToDocument env t v = some (some j) ∧ serializeToDocument env t (Val.refill a vb v) = some (some j') ∧
      (a ∈ addrs v → OneNode (Contents env t0 va vb) j j') ∧ (a ∉ addrs v → j' = j) := by
  have hb := ser_beside env H a True t0 va vb (Contents env t0 va vb) hH (contents_written env hfair t0 va vb hta hfa htb hfb) v t ht (fun _ => hf) [] []
  obtain ⟨new, j, tr, h1, h2, h3⟩ := serOk env hfair H v t [] [] [] ht hf
  have hin : a ∈ addrs v → STab.get (new ++ []) a ≠ none := fun ha hg =>
    get_none_keys hg ((h3.all (by intro b hb; simp [STab.keys] at hb)).2 a ha)
  have hout : a ∉ addrs v → STab.get (new ++ []) a = none := fun ha => by
    cases hg : STab.get (new ++ []) a with
    | none => rfl
    | some s =>
      have hm := mem_keys_of_lookup hg
      rw [List.append_nil, h3.keys, List.mem_reverse] at hm
      exact (ha (h3.sub a hm)).elim
  unfold serializeToDocument
  revert hb h1
  generalize ser env v t [] [] = r
  generalize ser env (Val.refill a vb v) t [] [] = r'
  rintro (_ | ⟨τ, _, hF⟩ | ⟨τ, x, _, hF⟩ | ⟨τ, x, y, _, hn, hd⟩) h1
  · cases h1
  · exact (hF trivial).elim
  · cases h1
    exact ⟨_, _, rfl, rfl, fun ha => (hin ha (hF trivial rfl)).elim, fun _ => rfl⟩
  · cases h1
    exact ⟨_, _, rfl, rfl, fun _ => hd, fun ha => (hn (hout ha)).elim⟩

/-- Three pointers to one object, and one to another. -/
abbrev quartet (n : Int) : Val := .seq [.sptr 1 (.prim (.int 5)), .sptr 2 (.prim (.int n)), .sptr 2 (.prim (.int n)), .sptr 2 (.prim (.int n))]

/-- The objects. -/
abbrev quartetHeap (n : Int) : Heap := fun a => if a = 1 then some (tInt, .prim (.int 5)) else if a = 2 then some (tInt, .prim (.int n)) else none

example (m : Int) (hm : int32.InRange m) : ∃ j', serializeToDocument Demo.env (.vec (.sptr tInt)) (quartet m) = some (some j') ∧
    OneNode (Contents Demo.env tInt (.prim (.int 7)) (.prim (.int m))) (.arr [.num (.int 5), .num (.int 7), dirDoc [(lit "$ref", lit "/1")], dirDoc [(lit "$ref", lit "/1")]]) j' := by
  obtain ⟨j, j', h1, h2, h3, -⟩ := C108_exact Demo.env fair (quartetHeap 7) 2 tInt (.prim (.int 7)) (.prim (.int m)) rfl (by decide : int32.InRange 7) rfl hm rfl
    (.vec (.sptr tInt)) (quartet 7) ⟨⟨rfl, (by decide : int32.InRange 5)⟩, ⟨rfl, (by decide : int32.InRange 7)⟩, ⟨rfl, (by decide : int32.InRange 7)⟩, ⟨rfl, (by decide : int32.InRange 7)⟩, trivial⟩ rfl
  have h4 : serializeToDocument Demo.env (.vec (.sptr tInt)) (quartet 7) =
      some (some (.arr [.num (.int 5), .num (.int 7), dirDoc [(lit "$ref", lit "/1")], dirDoc [(lit "$ref", lit "/1")]])) := by with_unfolding_all rfl
  rw [h4] at h1
  cases h1
  exact ⟨j', h2, h3 (by simp [addrs, addrsAll])⟩

/-- The same for the text. -/
theorem C108_text (env : Env) (hfair : env.Fair) (H H' : Heap) (a : Nat) (t0 : Ty) (va vb : Val) (hH : H a = some (t0, va))
    (hta : HasTy env (fun _ => none) va t0) (hfa : finite va = true) (htb : HasTy env (fun _ => none) vb t0) (hfb : finite vb = true)
    (t : Ty) (v : Val) (ht : HasTy env H v t) (ht' : HasTy env H' (Val.refill a vb v) t) (hf' : finite (Val.refill a vb v) = true) (before es : List Event)
    (h : writeToString env t v before = some (true, es)) :
    ∃ j j', es = events j ∧ writeToString env t (Val.refill a vb v) before = some (true, events j') ∧ (j' = j ∨ OneNode (Contents env t0 va vb) j j') := by
  obtain ⟨j, h1, rfl⟩ := C28_same_text_partial env t v before _ h
  obtain ⟨j', h2, h3⟩ := C108_document env hfair H a t0 va vb hH hta hfa htb hfb t v ht j h1
  obtain ⟨es', h4, -⟩ := C29_write_succeeds_iff_finite env hfair H' t _ ht' before
  rw [hf'] at h4
  obtain ⟨j1, h5, rfl⟩ := C28_same_text_partial env t _ before es' h4
  rw [h2] at h5
  cases h5
  exact ⟨j, j', rfl, h4, h3⟩

example (m : Int) (hm : int32.InRange m) : ∃ j j', writeToString Demo.env (.vec (.sptr tInt)) (quartet m) [.startArr] = some (true, events j') ∧
    (j' = j ∨ OneNode (Contents Demo.env tInt (.prim (.int 7)) (.prim (.int m))) j j') := by
  obtain ⟨es, h, -⟩ := C29_write_succeeds_iff_finite Demo.env fair (quartetHeap 7) (.vec (.sptr tInt)) (quartet 7)
    ⟨⟨rfl, (by decide : int32.InRange 5)⟩, ⟨rfl, (by decide : int32.InRange 7)⟩, ⟨rfl, (by decide : int32.InRange 7)⟩, ⟨rfl, (by decide : int32.InRange 7)⟩, trivial⟩ [.startArr]
  obtain ⟨j, j', -, h1, h2⟩ := C108_text Demo.env fair (quartetHeap 7) (quartetHeap m) 2 tInt (.prim (.int 7)) (.prim (.int m)) rfl (by decide : int32.InRange 7) rfl hm rfl
    (.vec (.sptr tInt)) (quartet 7) ⟨⟨rfl, (by decide : int32.InRange 5)⟩, ⟨rfl, (by decide : int32.InRange 7)⟩, ⟨rfl, (by decide : int32.InRange 7)⟩, ⟨rfl, (by decide : int32.InRange 7)⟩, trivial⟩
    ⟨⟨rfl, (by decide : int32.InRange 5)⟩, ⟨rfl, hm⟩, ⟨rfl, hm⟩, ⟨rfl, hm⟩, trivial⟩ rfl _ es h
  exact ⟨j, j', h1, h2⟩

end Verif.Props
