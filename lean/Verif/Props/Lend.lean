import Verif.Lend
import Verif.Demo

/-!
# How long a document can be used (C88)

`lendDocument` is `serialize_to_document` with the place of every string: memory of the document, or memory of the value. `Dom.view live`
goes through a document; `live` tells whether the value still exists unchanged, and the result is `none` if memory of a value that is
gone is needed. `st` tells which of `std::string`, `std::string_view` and `char[N]` stands at each place of the declarations.
-/

namespace Verif.Props
open Verif.Core Verif.Text Verif.Props

theorem lendDocument_json (env : Env) (st : Place → Storage) (t : Ty) (v : Val) :
    (lendDocument env st t v).map (·.map Dom.json) = serializeToDocument env t v := by
  unfold lendDocument serializeToDocument
  rw [← lend_json env st v t .root]
  cases lend env st v t .root [] [] with
  | ub => rfl
  | done σ r => cases r <;> rfl

/-- Classes are reached by pointers with the same string types. -/
theorem placed_of_classes {env : Env} {st : Place → Storage} {H : Heap} (h : ∀ a t w, H a = some (t, w) → ∃ c, t = .cls c) : H.Placed env st := by
  intro a t w pl pl' ha hl
  obtain ⟨c, rfl⟩ := h a t w ha
  cases hl with
  | member h1 h2 h3 h4 => exact .member h1 h2 h3 h4
  | optional h1 h2 h3 h4 => exact .optional h1 h2 h3 h4

/-- **C88 (as long as the value exists).** Whatever string types are used, the document is the same while the value exists: the one
`serialize_to_document` describes for `std::string`. -/
theorem C88_same_document (env : Env) (st : Place → Storage) (t : Ty) (v : Val) :
    (lendDocument env st t v).map (·.map (·.view true)) = (serializeToDocument env t v).map (·.map some) := by
  rw [← lendDocument_json env st t v]
  cases lendDocument env st t v with
  | none => rfl
  | some r =>
    cases r with
    | none => rfl
    | some d => simp [view_live]

/-- **C88 (as long as the value exists or nothing is lent).** For every value, of whatever type: if no string reached from the value is
a non-empty view or an array of characters, the document can be used after the value is gone, and is the same as before. -/
theorem C88_outlives_partial (env : Env) (st : Place → Storage) (t : Ty) (v : Val) (d : Dom)
    (h : lendDocument env st t v = some (some d)) (hl : ¬ Lends env st v t .root) :
    ∃ j, serializeToDocument env t v = some (some j) ∧ d.view false = some j ∧ d.view true = some j := by
  refine ⟨d.json, ?_, ?_, view_live d⟩
  · rw [← lendDocument_json env st t v, h]
    rfl
  · have hd : d.lent = false := by
      cases hd : d.lent with
      | false => rfl
      | true =>
        unfold lendDocument at h
        split at h
        · cases h
        · rename_i σ r he
          cases h
          exact (hl (lend_honest env st v _ _ _ _ _ _ he hd)).elim
    rw [view_dead, hd]
    rfl

/-- **C88 (strings).** Documents of programs that use `std::string` only outlive the values. -/
theorem C88_strings_outlive (env : Env) (st : Place → Storage) (hst : ∀ pl, st pl = .string) (t : Ty) (v : Val) (d : Dom)
    (h : lendDocument env st t v = some (some d)) : d.view false = d.view true ∧ d.view false ≠ none := by
  have hl : ∀ v t pl, ¬ Lends env st v t pl := by
    intro v t pl hl
    induction hl with
    | view h1 => rw [hst] at h1; cases h1
    | array h1 => rw [hst] at h1; cases h1
    | _ => assumption
  obtain ⟨j, -, h1, h2⟩ := C88_outlives_partial env st t v d h (hl v t .root)
  exact ⟨h1.trans h2.symm, by simp [h1]⟩

/-- **C88 (exactly when).** For every value of its type with finite numbers: the document needs the memory of the value if and only
if some string reached from the value is a non-empty `std::string_view` or a `char[N]`. A shared object counts although it may be
written as a reference, because it is written in full elsewhere. -/
theorem C88_readable_iff (env : Env) (hfair : env.Fair) (st : Place → Storage) (H : Heap) (hH : H.Placed env st) (t : Ty) (v : Val)
    (hty : HasTy env H v t) (hf : finite v = true) :
    ∃ d j, lendDocument env st t v = some (some d) ∧ serializeToDocument env t v = some (some j) ∧ d.view true = some j ∧
      (d.view false = none ↔ Lends env st v t .root) ∧ (d.view false = some j ↔ ¬ Lends env st v t .root) := by
  obtain ⟨σ', d, h, c⟩ := lend_open hfair hH v t .root [] [] hty hf
  have hdoc : lendDocument env st t v = some (some d) := by simp only [lendDocument, h]
  have hiff : d.lent = true ↔ Lends env st v t .root := by
    refine ⟨lend_honest env st v _ _ _ _ _ _ h, fun hl => ?_⟩
    rcases c.1 hl with hb | ⟨a, _, _, _, ha, _⟩
    · exact hb
    · cases ha
  refine ⟨d, d.json, hdoc, ?_, view_live d, ?_, ?_⟩
  · rw [← lendDocument_json env st t v, hdoc]
    rfl
  · rw [view_dead, ← hiff]
    by_cases hd : d.lent = true <;> simp [hd]
  · rw [view_dead, ← hiff]
    by_cases hd : d.lent = true <;> simp [hd]

end Verif.Props

namespace Verif.Demo
open Verif.Core Verif.Text Verif.Props

/-- `std::tuple<std::string, std::string_view>`: the second component of the type of the variable is a view. -/
def viewSecond : Place → Storage := fun pl => if pl = .nth .root 1 then .view else .string

/-- `{"own", "lent"}` -/
def ownLent : Val := .tup [.prim (.str (lit "own")), .prim (.str (lit "lent"))]
/-- The type of `ownLent`. -/
def tOwnLent : Ty := .tuple [tStr, tStr]

/-- The note of an `Item` is a `std::string_view`. -/
def viewNote : Place → Storage := fun pl => if pl = .member 1 1 then .view else .string

theorem heap_placed (st : Place → Storage) : Heap.Placed env st heap := by
  refine placed_of_classes ?_
  intro a t w h
  unfold heap at h
  split at h <;> cases h <;> exact ⟨1, rfl⟩

end Verif.Demo

namespace Verif.Props
open Verif.Core Verif.Text Verif.Props

/-- **C88 (documents that do not outlive the value).** The document of `std::tuple<std::string, std::string_view>{"own", "lent"}` is
`["own","lent"]` while the value exists, and needs memory that is gone afterwards. -/
theorem C88_dangles : ∃ d, lendDocument Demo.env Demo.viewSecond Demo.tOwnLent Demo.ownLent = some (some d) ∧
    d.view true = some (.arr [.str (lit "own"), .str (lit "lent")]) ∧ d.view false = none := by
  refine ⟨.arr [.str (lit "own") .own, .str (lit "lent") .argument], rfl, rfl, rfl⟩

/-- The hypotheses of `C88_readable_iff` are met, and the value lends: an item with a note that is a view, reached twice. -/
example : HasTy Demo.env Demo.heap (.obj [.sptr 100 Demo.item7, .sptr 100 Demo.item7]) (.cls 2) ∧
    finite (.obj [.sptr 100 Demo.item7, .sptr 100 Demo.item7]) = true ∧ Demo.heap.Placed Demo.env Demo.viewNote ∧ Demo.env.Fair ∧
    Lends Demo.env Demo.viewNote (.obj [.sptr 100 Demo.item7, .sptr 100 Demo.item7]) (.cls 2) .root := by
  refine ⟨?_, by decide +kernel, Demo.heap_placed _, Demo.fair, ?_⟩
  · simp [HasTy, MembersTy, Env.members, Demo.env, Demo.both, Demo.heap, Demo.item7, Demo.item, PrimTy, Demo.int32, Numeric.IntTy.InRange]
    decide +kernel
  · refine .member (i := 1) rfl rfl (by decide) (.sptr ?_)
    exact .optional (i := 1) rfl rfl rfl (.view rfl (by decide))

/-- What is lent is the note. -/
example : ∃ d, lendDocument Demo.env Demo.viewNote (.cls 2) (.obj [.sptr 100 Demo.item7, .sptr 100 Demo.item7]) = some (some d) ∧
    d.lent = true ∧ d.view false = none := ⟨_, rfl, rfl, rfl⟩

/-- An item without a note lends nothing: the document outlives it. -/
example : ¬ Lends Demo.env Demo.viewNote Demo.item8 (.cls 1) .root ∧
    ∃ d, lendDocument Demo.env Demo.viewNote (.cls 1) Demo.item8 = some (some d) ∧
      d.view false = some (.obj [(lit "id", .num (.int 8)), (lit "count", .num (.int 0))]) := by
  refine ⟨fun h => ?_, _, rfl, rfl⟩
  have hd := C88_readable_iff Demo.env Demo.fair Demo.viewNote Demo.heap (Demo.heap_placed _) (.cls 1) Demo.item8
    (by simp [HasTy, MembersTy, Env.members, Demo.env, Demo.item8, Demo.item, PrimTy, Demo.int32, Numeric.IntTy.InRange]; decide +kernel)
    (by decide +kernel)
  obtain ⟨d, j, h1, -, -, h2, -⟩ := hd
  have : d.view false = none := h2.2 h
  cases h1
  cases this

/-- Strings only: the value of `C88_dangles` outlives. -/
example : ∃ d, lendDocument Demo.env (fun _ => .string) Demo.tOwnLent Demo.ownLent = some (some d) ∧
    d.view false = some (.arr [.str (lit "own"), .str (lit "lent")]) := ⟨_, rfl, rfl⟩

/-- The same document for views and strings while the value exists. -/
example : (lendDocument Demo.env Demo.viewSecond Demo.tOwnLent Demo.ownLent).map (·.map (·.view true)) =
    some (some (some (.arr [.str (lit "own"), .str (lit "lent")]))) := by
  rw [C88_same_document]; rfl

end Verif.Props
