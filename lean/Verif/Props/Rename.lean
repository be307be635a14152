import Verif.Rename
import Verif.Props.RoundTrip
import Verif.Props.Text
import Verif.Props.Parse

/-!
# C83: addresses do not matter
-/

namespace Verif.Props
open Verif.Core Verif.Numeric Verif.Demo

/-! ## Writing -/

/-- **C83, partial.** The document does not depend on where the shared objects are: objects at other addresses (different ones for
different objects) give the same document, the same failure or the same undefined behaviour.

Missing: sets of pointers, whose elements come in another order if the addresses change (`C83_set_order`). -/
theorem C83_document_partial (env : Env) (t : Ty) (v : Val) (f : Nat → Nat) (hf : ∀ a ∈ addrs v, ∀ b ∈ addrs v, f a = f b → a = b) :
    serializeToDocument env t (rename f v) = serializeToDocument env t v :=
  document_moved env t f v hf

/-- **C83, partial.** The same for the text. -/
theorem C83_text_partial (env : Env) (t : Ty) (v : Val) (f : Nat → Nat) (hf : ∀ a ∈ addrs v, ∀ b ∈ addrs v, f a = f b → a = b) (before : List Event) :
    writeToString env t (rename f v) before = writeToString env t v before :=
  text_moved env t f v hf before

/-- **C83, partial.** What was written and read is written again as the same document and the same text, with all references. (Restrictions of C26.) -/
theorem C83_again_partial (env : Env) (hfair : env.Fair) (hclk : 0 < env.clk) (hdist : env.DistinctNames) (H : Heap) (v : Val) (t : Ty)
    (ht : HasTy env H v t) (hf : finite v = true) (hr : Readable env v t) (hs : addrs v ≠ [] → env.PlainNames ∧ PathSafe v) (next : Nat) :
    ∃ doc w, serializeToDocument env t v = some (some doc) ∧ deserializeThrow env t doc next = .returned w ∧
      (∀ target, deserializeBool env t doc target next = some (true, w)) ∧ serializeToDocument env t w = some (some doc) ∧
      ∀ before, writeToString env t w before = writeToString env t v before := by
  obtain ⟨doc, h1, h2⟩ := C26_dom_roundtrip_partial env hfair hclk hdist H v t ht hf hr hs
  obtain ⟨ρ, h3, h4, h5⟩ := h2 next
  exact ⟨doc, rename ρ v, h1, h4, h5, (C83_document_partial env t v ρ h3).trans h1, fun before => C83_text_partial env t v ρ h3 before⟩

/-- Two objects of which one is used twice, at addresses 100 and 200 or at 7 and 3. -/
example : serializeToDocument Demo.env (.vec (.cls 2)) (rename (fun a => if a = 100 then 7 else 3) crowd) = serializeToDocument Demo.env (.vec (.cls 2)) crowd :=
  C83_document_partial _ _ _ _ (by decide +kernel)

example : writeToString Demo.env (.vec (.cls 2)) (rename (fun a => if a = 100 then 7 else 3) crowd) [] = writeToString Demo.env (.vec (.cls 2)) crowd [] :=
  C83_text_partial _ _ _ _ (by decide +kernel) _

example : ∃ doc w, serializeToDocument Demo.env (.vec (.cls 2)) crowd = some (some doc) ∧ deserializeThrow Demo.env (.vec (.cls 2)) doc 5 = .returned w ∧
      (∀ target, deserializeBool Demo.env (.vec (.cls 2)) doc target 5 = some (true, w)) ∧ serializeToDocument Demo.env (.vec (.cls 2)) w = some (some doc) ∧
      ∀ before, writeToString Demo.env (.vec (.cls 2)) w before = writeToString Demo.env (.vec (.cls 2)) crowd before :=
  C83_again_partial Demo.env fair (by decide) demo_distinct heap _ _ ty_crowd (by decide +kernel) crowd_readable (fun _ => ⟨demo_plain, crowd_safe⟩) 5

/-- **C83, negation.** A set of shared pointers with two objects. The same objects at exchanged addresses are written in the other order. -/
theorem C83_set_order : ∃ (f : Nat → Nat) (H H' : Heap) (v w : Val), (∀ a b, f a = f b → a = b) ∧
    HasTy Demo.env H (.set [v, w]) (.set (.sptr tInt)) ∧ HasTy Demo.env H' (.set [rename f w, rename f v]) (.set (.sptr tInt)) ∧
    serializeToDocument Demo.env (.set (.sptr tInt)) (.set [v, w]) = some (some (.arr [.num (.int 1), .num (.int 2)])) ∧
    serializeToDocument Demo.env (.set (.sptr tInt)) (.set [rename f w, rename f v]) = some (some (.arr [.num (.int 2), .num (.int 1)])) := by
  refine ⟨fun a => if a = 10 then 20 else if a = 20 then 10 else a, fun a => if a = 10 then some (tInt, .prim (.int 1)) else some (tInt, .prim (.int 2)),
    fun a => if a = 10 then some (tInt, .prim (.int 2)) else some (tInt, .prim (.int 1)), .sptr 10 (.prim (.int 1)), .sptr 20 (.prim (.int 2)), ?_, ?_, ?_, rfl, rfl⟩
  · intro a b h; simp only at h; split at h <;> split at h <;> (try split at h) <;> (try split at h) <;> omega
  · simp only [HasTy, AllTy, PrimTy, and_true]
    exact ⟨⟨⟨rfl, by decide⟩, ⟨rfl, by decide⟩⟩, by simp [Demo.env, less]⟩
  · simp only [rename, HasTy, AllTy, PrimTy, and_true]
    exact ⟨⟨⟨rfl, by decide⟩, ⟨rfl, by decide⟩⟩, by simp [Demo.env, less]⟩

/-- Sharing matters: two pointers to the same object are not written like pointers to equal objects. -/
example : serializeToDocument Demo.env (.vec (.sptr tInt)) (.seq [.sptr 10 (.prim (.int 1)), .sptr 20 (.prim (.int 1))]) ≠
    serializeToDocument Demo.env (.vec (.sptr tInt)) (rename (fun _ => 10) (.seq [.sptr 10 (.prim (.int 1)), .sptr 20 (.prim (.int 1))])) := by
  intro h
  have h1 : serializeToDocument Demo.env (.vec (.sptr tInt)) (.seq [.sptr 10 (.prim (.int 1)), .sptr 20 (.prim (.int 1))]) =
    some (some (.arr [.num (.int 1), .num (.int 1)])) := rfl
  have h2 : serializeToDocument Demo.env (.vec (.sptr tInt)) (rename (fun _ => 10) (.seq [.sptr 10 (.prim (.int 1)), .sptr 20 (.prim (.int 1))])) =
    some (some (.arr [.num (.int 1), .obj [(lit "$ref", .str (lit "/0"))]])) := rfl
  rw [h1, h2] at h
  simp at h

/-! ## Reading -/

/-- An outcome with other addresses. -/
def Thrown.rename (f : Nat → Nat) : Thrown → Thrown
  | .returned v => .returned (Core.rename f v)
  | r => r

theorem start_moved (f : Nat → Nat) (next next' : Nat) (hn : ∀ k, f (next + k) = next' + k) : DState.Moved f ⟨[], next⟩ ⟨[], next'⟩ := ⟨rfl, hn⟩

/-- **C83.** The boolean DOM reader: if the allocator returns other addresses and what was in the target is elsewhere, the verdict is the same,
and the value is the same but for the addresses. -/
theorem C83_read (env : Env) (f : Nat → Nat) (hb : env.Blind f) (t : Ty) (root : Json) (target : Val) (next next' : Nat)
    (hn : ∀ k, f (next + k) = next' + k) :
    deserializeBool env t root (rename f target) next' = (deserializeBool env t root target next).map fun r => (r.1, rename f r.2) := by
  have h := deser_moved env f hb root root false t target [] [] _ _ (start_moved f next next' hn)
  unfold deserializeBool
  generalize deser env root root false t target [] [] ⟨[], next⟩ = r at h ⊢
  generalize deser env root root false t (rename f target) [] [] ⟨[], next'⟩ = r' at h ⊢
  cases h <;> rfl

/-- **C83.** The same for the throwing variant: the same exception, or the same value but for the addresses. -/
theorem C83_throw (env : Env) (f : Nat → Nat) (hb : env.Blind f) (t : Ty) (root : Json) (next next' : Nat) (hn : ∀ k, f (next + k) = next' + k) :
    deserializeThrow env t root next' = Thrown.rename f (deserializeThrow env t root next) := by
  have h := deser_moved env f hb root root true t (env.fresh t) [] [] _ _ (start_moved f next next' hn)
  rw [hb.fresh] at h
  unfold deserializeThrow
  generalize deser env root root true t (env.fresh t) [] [] ⟨[], next⟩ = r at h ⊢
  generalize deser env root root true t (env.fresh t) [] [] ⟨[], next'⟩ = r' at h ⊢
  cases h <;> rfl

/-- An outcome with other addresses. -/
def ParseBool.rename (f : Nat → Nat) : ParseBool → ParseBool
  | .accepted v => .accepted (Core.rename f v)
  | r => r

/-- **C83, partial.** The same for the parser (types and documents of C42). -/
theorem C83_parse_partial (env : Env) (host : Host) (G : Nat → Prop) (hG : StreamableClasses env G) (ht : TablesBuilt env host)
    (d : Nat) (hroom : Roomy host d) (t : Ty) (hs : Streamable G t) (j : Json) (hd : j.depth ≤ d) (hp : j.proper = true)
    (f : Nat → Nat) (hb : env.Blind f) (target : Val) (n n' : Nat) (hn : ∀ k, f (n + k) = n' + k) :
    parseBool env host t (.document j) (rename f target) n' = ParseBool.rename f (parseBool env host t (.document j) target n) := by
  rw [C42_document_partial env host G hG ht d hroom t hs j hd hp, C42_document_partial env host G hG ht d hroom t hs j hd hp]
  have h := meaning_moved env f hb j t target n n' hn
  generalize meaning env j t target n = r at h ⊢
  generalize meaning env j t (rename f target) n' = r' at h ⊢
  cases h <;> rfl

theorem demo_blind (c : Nat) : Demo.env.Blind (· + c) where
  fresh := fun _ => rfl
  ctor := fun _ => rfl
  less := by
    intro v w
    cases v with
    | prim p => cases p <;> cases w <;> rfl
    | sptr a x =>
      cases w with
      | sptr b y => simp [rename, Demo.env, less]
      | _ => rfl
    | _ => rfl

/-- An object that is used twice: at the addresses 5 or 105. -/
example : deserializeBool Demo.env (.vec (.sptr tInt)) (.arr [.num (.int 1), .obj [(lit "$ref", .str (lit "/0"))]]) (.seq []) 105 =
    some (true, .seq [.sptr 105 (.prim (.int 1)), .sptr 105 (.prim (.int 1))]) := by
  have h := C83_read Demo.env (· + 100) (demo_blind 100) (.vec (.sptr tInt)) (.arr [.num (.int 1), .obj [(lit "$ref", .str (lit "/0"))]]) (.seq []) 5 105
    (fun k => by omega)
  have h5 : deserializeBool Demo.env (.vec (.sptr tInt)) (.arr [.num (.int 1), .obj [(lit "$ref", .str (lit "/0"))]]) (.seq []) 5 =
    some (true, .seq [.sptr 5 (.prim (.int 1)), .sptr 5 (.prim (.int 1))]) := rfl
  rw [h5] at h
  exact h

example : deserializeThrow Demo.env (.vec (.sptr tInt)) (.arr [.num (.int 1), .obj [(lit "$ref", .str (lit "/0"))]]) 105 =
    Thrown.rename (· + 100) (deserializeThrow Demo.env (.vec (.sptr tInt)) (.arr [.num (.int 1), .obj [(lit "$ref", .str (lit "/0"))]]) 5) :=
  C83_throw Demo.env (· + 100) (demo_blind 100) _ _ 5 105 (fun k => by omega)

example : parseBool Demo.env host (.vec (.sptr (.cls 1))) (.document (.arr [.obj [(lit "id", .num (.int 1))]])) (.seq []) 105 =
    ParseBool.rename (· + 100) (parseBool Demo.env host (.vec (.sptr (.cls 1))) (.document (.arr [.obj [(lit "id", .num (.int 1))]])) (.seq []) 5) :=
  C83_parse_partial Demo.env host streamed streamable_classes tables_built 100 host_roomy (.vec (.sptr (.cls 1))) ⟨rfl, .inr (.inl rfl)⟩ _
    (by decide +kernel) (by decide +kernel) (· + 100) (demo_blind 100) (.seq []) 5 105 (fun k => by omega)

end Verif.Props
