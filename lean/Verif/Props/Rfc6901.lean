import Verif.Rfc6901
import Verif.Demo

/-!
# C89: a reference means what RFC 6901 says
-/

namespace Verif.Props
open Verif.Core Verif.Rfc6901

/-- **C89 (texts).** A text is taken apart into names exactly as RFC 6901 says, with `~1` for `/` and `~0` for `~` in names; texts that
begin with `#` are of the other kind of section 6. -/
theorem C89_tokens (env : Env) (p : Str) (hp : p.head? ≠ some 35) :
    (∀ ts, pointerTokens env p = some ts ↔ Pointer p ts) ∧ (pointerTokens env p = none ↔ ¬ ∃ ts, Pointer p ts) := by
  refine ⟨tokens_iff env p hp, ?_⟩
  constructor
  · rintro h ⟨ts, ht⟩
    rw [(tokens_iff env p hp ts).2 ht] at h
    cases h
  · intro h
    cases ht : pointerTokens env p with
    | none => rfl
    | some ts => exact (h ⟨ts, (tokens_iff env p hp ts).1 ht⟩).elim

/-- `/a~1b/m~0n/7` -/
example : Pointer (lit "/a~1b/m~0n/7") [lit "a/b", lit "m~n", lit "7"] :=
  (tokens_iff Demo.env _ (by decide) _).1 (by decide +kernel)

/-- `/~2` is no pointer. -/
example : ¬ ∃ ts, Pointer (lit "/~2") ts := ((C89_tokens Demo.env (lit "/~2") (by decide)).2).1 (by decide +kernel)

/-- **C89, partial.** The node found by a pointer is the one that RFC 6901 says, in every document without arrays of more than
429496729 elements. Missing: larger arrays, see `C89_overflow`. -/
theorem C89_found_partial (root : Json) (hs : Small root) (ts : List Str) (q : List Nat) :
    pointerGet root ts = some q ↔ ∃ k, At root ts q k := get_iff ts root hs q

/-- **C89, partial.** Reading a reference, by both variants of `deserialize`: if the pointer leads to a node from which an object of the type
was read before, the reference is a pointer to this object; if it leads to no node, or to one from which no object was
read, the reference is refused, and nothing is changed; if it is no pointer, RapidJSON fails an assertion. -/
theorem C89_reference_partial (env : Env) (root : Json) (hs : Small root) (j : Json) (p : Str) (hj : refMember j = some (.str p))
    (hp : p.head? ≠ some 35) (exc : Bool) (t : Ty) (target : Val) (loc : Loc) (segs : List Seg) (st : DState) :
    (∀ ts q k a v, Pointer p ts → At root ts q k → st.get q.reverse = some (a, t, v) →
      deser env root j exc (.sptr t) target loc segs st = .done true (.sptr a v) st) ∧
    (∀ ts, Pointer p ts → (∀ q k, At root ts q k → st.get q.reverse = none) →
      deser env root j exc (.sptr t) target loc segs st = .done false target st) ∧
    ((¬ ∃ ts, Pointer p ts) → deser env root j exc (.sptr t) target loc segs st = .ub) := by
  rw [deser_sptr, hj]
  simp only [readRef]
  refine ⟨?_, ?_, ?_⟩
  · intro ts q k a v h1 h2 h3
    simp only [(tokens_iff env p hp ts).2 h1, (get_iff ts root hs q).2 ⟨k, h2⟩, h3, if_true]
  · intro ts h1 h2
    simp only [(tokens_iff env p hp ts).2 h1]
    cases hg : pointerGet root ts with
    | none => rfl
    | some q =>
      obtain ⟨k, hk⟩ := (get_iff ts root hs q).1 hg
      simp only [h2 q k hk]
  · intro h
    rw [((C89_tokens env p hp).2).2 h]

/-- The document `{"a/b": {"id": 7, "count": 2}, "c": {"$ref": "/a~1b"}}`, which another program may have written. -/
def foreign : Json := .obj [(lit "a/b", .obj [(lit "id", .num (.int 7)), (lit "count", .num (.int 2))]), (lit "c", .obj [(lit "$ref", .str (lit "/a~1b"))])]

theorem foreign_small : Small foreign := small_of_widest (by simp [foreign, widest, widestFields])

/-- Both entries of the map are the same object. -/
example : Small foreign ∧ refMember (.obj [(lit "$ref", .str (lit "/a~1b"))]) = some (.str (lit "/a~1b")) ∧ Pointer (lit "/a~1b") [lit "a/b"] ∧
    (∃ k, At foreign [lit "a/b"] [0] k) ∧
    deserializeBool Demo.env (.map true (.sptr (.cls 1))) foreign (.map []) 100 = some (true, .map
      [(lit "a/b", .sptr 100 (.obj [.prim (.int 7), .absent, .prim (.int 2)])), (lit "c", .sptr 100 (.obj [.prim (.int 7), .absent, .prim (.int 2)]))]) :=
  ⟨foreign_small, rfl, (tokens_iff Demo.env _ (by decide) _).1 (by decide +kernel), ⟨_, .member (pre := []) (by simp) (.here _)⟩, rfl⟩

/-- **C89, full statement refuted.** RapidJSON notices the overflow of an index only if the result is smaller than before the last digit:
in an array with enough elements `/6000000000` is element 1705032704, not a pointer to nothing. -/
theorem C89_overflow (js : List Json) (h1 : 1705032704 < js.length) (h2 : js.length ≤ 6000000000) :
    pointerGet (.arr js) [lit "6000000000"] = some [1705032704] ∧ ¬ ∃ q k, At (.arr js) [lit "6000000000"] q k := by
  constructor
  · have h : tokenIndex (lit "6000000000") = some 1705032704 := by decide +kernel
    simp only [pointerGet, h, List.getElem?_eq_getElem h1]
    rfl
  · rintro ⟨q, k, h⟩
    cases h with
    | element hj hi hk =>
      rename_i n j q
      have hn : n = 6000000000 := hi.value
      have := (List.getElem?_eq_some_iff.1 hj).1
      omega

/-- There are such arrays. -/
example : 1705032704 < (List.replicate 1705032705 Json.null).length ∧ (List.replicate 1705032705 Json.null).length ≤ 6000000000 := by
  rw [List.length_replicate]; omega

/-- **C89 (written).** The references that the library writes mean the names on the way to the object, if no name has a `/` or `~` and
no index is too great (see C47 for the others). -/
theorem C89_written_partial (segs : List Seg) (hne : segs ≠ []) (h : ∀ s ∈ segs, s.Plain) : Pointer (pathStr segs) (segs.reverse.map segToken) := by
  refine (tokens_iff Demo.env _ ?_ _).1 (pointerTokens_pathStr Demo.env segs hne h)
  unfold pathStr
  rw [if_neg hne]
  intro hh
  cases hr : segs.reverse with
  | nil => exact hne (by simpa using hr)
  | cons s rest =>
    rw [hr] at hh
    cases s <;> simp [segsText, segText] at hh

example : Pointer (pathStr [.index 3, .named (lit "items")]) [lit "items", lit "3"] :=
  C89_written_partial [.index 3, .named (lit "items")] (by simp) (by intro s hs; simp at hs; rcases hs with rfl | rfl <;> simp [Seg.Plain]; decide)

/-- **C89 (not written).** A name with `~` gives a text that is no pointer, one with `/` a pointer to something else. -/
theorem C89_unescaped : (¬ ∃ ts, Pointer (pathStr [.named (lit "a~b")]) ts) ∧ Pointer (pathStr [.named (lit "a/b")]) [lit "a", lit "b"] :=
  ⟨((C89_tokens Demo.env (lit "/a~b") (by decide)).2).1 (by decide +kernel), (tokens_iff Demo.env _ (by decide) _).1 (by decide +kernel)⟩

end Verif.Props
