import Verif.SerLeft
import Verif.Props.Survive

/-!
# C97: what a failed serialization leaves in the destination
-/

namespace Verif.Props
open Verif.Core Verif.Numeric Verif.Demo

/-- **C97.** If `serialize_to_document(obj, doc)` succeeds then `doc` is the document, whatever it was before. -/
theorem C97_success (env : Env) (t : Ty) (v : Val) (doc prev : Json) (h : serializeToDocument env t v = some (some doc)) :
    serializeInto env t v prev = some (true, doc) := by
  unfold serializeToDocument at h
  split at h
  · simp at h
  · rename_i σ r h1
    simp only [Option.some.injEq] at h
    subst h
    simp only [serializeInto, h1, Option.isSome_some, left_document env v t [] [] σ doc prev h1]

/-- **C97.** If it fails for a well-typed value then there are two cases, up to alternatives of variants and pointers: a lone
number, which leaves `doc` unchanged; or a container, and then `doc` is the (complete) document of the elements before the first
one that cannot be serialized, and nothing of what was in `doc` before is left. -/
theorem C97_failure (env : Env) (hfair : env.Fair) (H : Heap) (t : Ty) (v : Val) (ht : HasTy env H v t) (prev : Json)
    (h : serializeToDocument env t v = some none) :
    match trimmed env v t with
    | none => serializeInto env t v prev = some (false, prev)
    | some (w, u) => ∃ left, serializeToDocument env u w = some (some left) ∧ serializeInto env t v prev = some (false, left) := by
  have hs := ((C30_fails_iff env hfair H t v ht).1).1 h
  have h1 := left_failed env hfair H v t prev ht hs
  have h2 : serializeInto env t v prev = some (false, serLeft env v t [] [] prev) := by
    unfold serializeToDocument at h
    split at h
    · simp at h
    · rename_i σ r h3
      simp only [Option.some.injEq] at h
      subst h
      simp only [serializeInto, h3, Option.isSome_none]
  split
  · rename_i h3
    simp only [h3] at h1
    rw [h2, h1]
  · rename_i w u h3
    simp only [h3] at h1
    obtain ⟨σ', h4⟩ := h1
    exact ⟨_, by simp only [serializeToDocument, h4], h2⟩

/-- **C97.** If `write_to_string(obj, writer)` fails for a well-typed value then the calls made are exactly those that come before
the first infinity or NaN: whatever finite number `x` is put in place of the numbers that are not finite, the text of the document
begins with the calls made, and `x` comes next. -/
theorem C97_writer (env : Env) (hfair : env.Fair) (H : Heap) (t : Ty) (v : Val) (ht : HasTy env H v t) (hf : finite v = false) :
    ∃ es, writeInto env t v = some (false, es) ∧ ∀ x : Flt, x.isFinite = true →
      ∃ doc more, serializeToDocument env t (patch x v) = some (some doc) ∧ events doc = es ++ .num (.dbl x) :: more := by
  obtain ⟨σ', es, h1, -⟩ := wr_total env hfair H v t [] [] ht (by intro a ha; simp [STab.keys] at ha)
  rw [hf] at h1
  refine ⟨es, by simp only [writeInto, h1], fun x hx => ?_⟩
  obtain ⟨σ2, es2, h2, h3⟩ := paired env hfair H x hx v t [] [] ht
  obtain ⟨doc, h4, h5⟩ := wr_ser env _ _ _ _ _ _ h2
  rcases h3 with h3 | ⟨σ1, es1, more, h3, h6⟩
  · rw [h1] at h3
    simp at h3
  · rw [h1] at h3
    cases h3
    exact ⟨doc, more, by simp only [serializeToDocument, h4], by rw [h5, h6]⟩

/-- **C97.** If `write_to_string(obj, writer)` succeeds then the calls made are those of the text. -/
theorem C97_writer_success (env : Env) (t : Ty) (v : Val) (es : List Event) :
    writeInto env t v = some (true, es) ↔ ∀ before, writeToString env t v before = some (true, es) := by
  unfold writeInto writeToString
  cases wr env v t [] [] with
  | ub => simp
  | done σ ok es' => cases ok <;> simp

/-- Pairs of an item and a number; the number of the second pair is not one. -/
def scored : Val := .seq [.tup [.sptr 100 item7, .prim (.flt (.fin false 1 0))], .tup [.sptr 100 item7, .prim (.flt .nan)],
  .tup [.sptr 100 item7, .prim (.flt (.fin false 2 0))]]

/-- The type of `scored`. -/
def tScored : Ty := .vec (.tuple [.sptr (.cls 1), tDbl])

theorem ty_scored : HasTy Demo.env heap scored tScored := by
  have h : HasTy Demo.env heap item7 (.cls 1) := ty_item7
  have h' : heap 100 = some (.cls 1, item7) := rfl
  simp only [scored, tScored, HasTy, AllTy, HasTys, h, h', and_true, true_and, PrimTy]
  decide

/-- The document of the first pair of `scored`. -/
def scoredDoc : Json := .arr [.arr [.obj [(lit "id", .num (.int 7)), (lit "note", .str (lit "ok")), (lit "count", .num (.int 2))],
  .num (.dbl (.fin false 1 0))]]

/-- **C97, negation.** A failed `serialize_to_document` does not leave the document as it was (a failed
`write_to_string(obj, str)` does, C29), nor does it leave it empty: the first pair of three is in the document. -/
theorem C97_overwritten : HasTy Demo.env heap scored tScored ∧
    serializeInto Demo.env tScored scored (.str (lit "old")) = some (false, scoredDoc) :=
  ⟨ty_scored, by with_unfolding_all rfl⟩

example : ∃ left, serializeToDocument Demo.env tScored (.seq [.tup [.sptr 100 item7, .prim (.flt (.fin false 1 0))]]) = some (some left) ∧
    serializeInto Demo.env tScored scored .null = some (false, left) :=
  C97_failure Demo.env fair heap tScored scored ty_scored .null (by with_unfolding_all rfl)
example : serializeInto Demo.env (.variant [.prim .str, .uptr tDbl]) (.alt 1 (.uptr (.prim (.flt .nan)))) (.bool true) = some (false, .bool true) := by
  refine C97_failure Demo.env fair heap (.variant [.prim .str, .uptr tDbl]) (.alt 1 (.uptr (.prim (.flt .nan)))) ?_ (.bool true) (by with_unfolding_all rfl)
  exact ⟨.uptr tDbl, rfl, by simp only [HasTy, PrimTy]; decide⟩
example : serializeInto Demo.env (.cls 0) goodPoint (.arr [.null]) =
    some (true, .obj [(lit "x", .num (.dbl (.fin false 1 0))), (lit "y", .num (.dbl (.fin false 3 0)))]) :=
  C97_success Demo.env _ _ _ _ (by with_unfolding_all rfl)

/-- The calls made for `scored`. -/
def scoredCalls : List Event := [.startArr, .startArr, .startObj, .key (lit "id"), .num (.int 7), .key (lit "note"), .str (lit "ok"),
  .key (lit "count"), .num (.int 2), .endObj, .num (.dbl (.fin false 1 0)), .endArr, .startArr, .startObj, .key (lit "$ref"),
  .str (lit "/0/0"), .endObj]

example : writeInto Demo.env tScored scored = some (false, scoredCalls) := by with_unfolding_all rfl
example : ∃ doc more, serializeToDocument Demo.env tScored (patch (.zero false) scored) = some (some doc) ∧
    events doc = scoredCalls ++ .num (.dbl (.zero false)) :: more := by
  obtain ⟨es, h1, h2⟩ := C97_writer Demo.env fair heap tScored scored ty_scored rfl
  have h3 : writeInto Demo.env tScored scored = some (false, scoredCalls) := by with_unfolding_all rfl
  rw [h3] at h1
  cases h1
  exact h2 (.zero false) rfl
example : writeToString Demo.env (.cls 0) goodPoint [] = some (true, [.startObj, .key (lit "x"), .num (.dbl (.fin false 1 0)), .key (lit "y"),
    .num (.dbl (.fin false 3 0)), .endObj]) :=
  (C97_writer_success Demo.env _ _ _).1 (by with_unfolding_all rfl) []

end Verif.Props
