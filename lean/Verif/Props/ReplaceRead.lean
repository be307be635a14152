import Verif.ReplaceRead
import Verif.Props.Replace
import Verif.Props.RoundTrip

/-!
# C116: a change of a shared object in the file reaches every pointer to it

`JsonDeserializer<Exception, std::shared_ptr<T>>` (deserialize_pointer.hpp, lines 33-67) reads a reference as a pointer to the object that was read at the place. The content of a shared object
stands at one node of the document (C108); whoever changes this node changes the object for all of its pointers.
-/

namespace Verif.Props
open Verif.Core Verif.Numeric Verif.Demo

/-- **C116.** A value refers to the object at the address `a`, any number of times; `va` is its content and `vb` another content, both without shared objects. The documents of the value
with the two contents differ at one node, where the one has the old content and the other has the new one. The first is read as the value, and the second as the value in which
*every* pointer to the object has the new content; the objects are different where they were, and the same where they were. Reading starts at any address, and the variable that is read
may have any content before. As for C26, paths must be able to express the places, and alternatives of variants must tell themselves apart. -/
theorem C116_every_pointer_partial (env : Env) (hfair : env.Fair) (hclk : 0 < env.clk) (hplain : env.PlainNames) (H : Heap) (a : Nat) (t0 : Ty) (va vb : Val)
    (hH : H a = some (t0, va)) (hta : HasTy env (fun _ => none) va t0) (hfa : finite va = true) (htb : HasTy env (fun _ => none) vb t0) (hfb : finite vb = true)
    (hsb : PathSafe vb) (t : Ty) (v : Val) (ht : HasTy env H v t) (hf : finite v = true) (hs : PathSafe v) (ha : a ∈ addrs v)
    (hr : Readable env v t) (hr' : Readable env (Val.refill a vb v) t) :
    ∃ j j', serializeToDocument env t v = some (some j) ∧ OneNode (Contents env t0 va vb) j j' ∧
      ∀ next, ∃ ρ ρ', (∀ b ∈ addrs v, ∀ c ∈ addrs v, ρ b = ρ c → b = c) ∧ (∀ b ∈ addrs v, ∀ c ∈ addrs v, ρ' b = ρ' c → b = c) ∧
        deserializeThrow env t j next = .returned (rename ρ v) ∧
        deserializeThrow env t j' next = .returned (Val.refill (ρ' a) vb (rename ρ' v)) ∧
        ∀ target, deserializeBool env t j target next = some (true, rename ρ v) ∧
          deserializeBool env t j' target next = some (true, Val.refill (ρ' a) vb (rename ρ' v)) := by
  have hdist : env.DistinctNames := fun c => (hplain c).2
  obtain ⟨ht', had⟩ := refill_typed hH (typed_noaddr env va t0 hta) htb v t (.inl hs) ht
  obtain ⟨j, j', h1, h2, h3, -⟩ := C108_exact env hfair H a t0 va vb hH hta hfa htb hfb t v ht hf
  obtain ⟨d, k1, k2⟩ := C26_dom_roundtrip_partial env hfair hclk hdist H v t ht hf hr fun _ => ⟨hplain, hs⟩
  obtain ⟨d', l1, l2⟩ := C26_dom_roundtrip_partial env hfair hclk hdist _ _ t ht' (finite_refill a vb hfb v hf) hr'
    fun _ => ⟨hplain, pathSafe_refill a vb hsb v hs⟩
  rw [h1] at k1
  rw [h2] at l1
  cases k1
  cases l1
  refine ⟨j, j', h1, h3 ha, fun next => ?_⟩
  obtain ⟨ρ, m1, m2, m3⟩ := k2 next
  obtain ⟨ρ', n1, n2, n3⟩ := l2 next
  rw [rename_refill ρ' a vb (typed_noaddr env vb t0 htb) v fun b hb => n1 b hb a (by rw [had]; exact ha)] at n2 n3
  rw [had] at n1
  exact ⟨ρ, ρ', m1, n1, m2, n2, fun target => ⟨m3 target, n3 target⟩⟩

theorem quartet_typed (n : Int) (hn : int32.InRange n) : HasTy Demo.env (quartetHeap n) (quartet n) (.vec (.sptr tInt)) :=
  ⟨⟨rfl, (by decide : int32.InRange 5)⟩, ⟨rfl, hn⟩, ⟨rfl, hn⟩, ⟨rfl, hn⟩, trivial⟩

theorem quartet_safe (n : Int) : PathSafe (quartet n) := by simp [PathSafe, PathSafeAll]

theorem quartet_readable (n : Int) : Readable Demo.env (quartet n) (.vec (.sptr tInt)) := by
  simp [Readable, ReadableAll, LeafGood, Ty.topShared, topKeys]

/-- Three pointers to one object, and one to another: after the change of the one node, the three pointers have the new content, whatever it is, and the fourth has what it had. -/
example (m : Int) (hm : int32.InRange m) : ∃ j', OneNode (Contents Demo.env tInt (.prim (.int 7)) (.prim (.int m)))
      (.arr [.num (.int 5), .num (.int 7), dirDoc [(lit "$ref", lit "/1")], dirDoc [(lit "$ref", lit "/1")]]) j' ∧
    ∃ p q, p ≠ q ∧ deserializeThrow Demo.env (.vec (.sptr tInt)) j' 0 =
      .returned (.seq [.sptr p (.prim (.int 5)), .sptr q (.prim (.int m)), .sptr q (.prim (.int m)), .sptr q (.prim (.int m))]) := by
  obtain ⟨j, j', h1, h2, h3⟩ := C116_every_pointer_partial Demo.env fair (by decide) demo_plain (quartetHeap 7) 2 tInt (.prim (.int 7)) (.prim (.int m)) rfl
    (by decide : int32.InRange 7) rfl hm rfl trivial (.vec (.sptr tInt)) (quartet 7) (quartet_typed 7 (by decide)) rfl (quartet_safe 7) (by simp [addrs, addrsAll])
    (quartet_readable 7) (quartet_readable m)
  have h4 : serializeToDocument Demo.env (.vec (.sptr tInt)) (quartet 7) =
      some (some (.arr [.num (.int 5), .num (.int 7), dirDoc [(lit "$ref", lit "/1")], dirDoc [(lit "$ref", lit "/1")]])) := by with_unfolding_all rfl
  rw [h4] at h1
  cases h1
  obtain ⟨ρ, ρ', -, k2, -, k4, -⟩ := h3 0
  have hne : ρ' 1 ≠ ρ' 2 := fun h => absurd (k2 1 (by simp [addrs, addrsAll]) 2 (by simp [addrs, addrsAll]) h) (by decide)
  refine ⟨j', h2, ρ' 1, ρ' 2, hne, ?_⟩
  rw [k4]
  simp [rename, renameAll, Val.refill, refillAll, hne]

end Verif.Props
