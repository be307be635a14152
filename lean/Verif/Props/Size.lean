import Verif.SizeParse
import Verif.SizeText
import Verif.Props.Text
import Verif.Props.Parse

/-!
# C92: what is read is no larger than what it is read from
-/

namespace Verif.Props
open Verif.Core Verif.Demo Verif.Numeric Verif.Text

/-! ## The DOM reader -/

/-- **C92, partial.** What the DOM reader stores (also when it fails) is smaller than the document and what was in the variable before. Names and
texts, elements of containers and entries of maps are counted; the objects of classes, arrays and tuples have the size that the type gives them.

Missing: shared pointers, where several pointers may refer to one object. -/
theorem C92_read_partial (env : Env) (hu : env.Unshared) (hn : env.DistinctNames) (hs : env.Slim) (t : Ty) (ht : t.unshared = true) (root : Json)
    (target : Val) (next : Nat) (ok : Bool) (v : Val) (h : deserializeBool env t root target next = some (ok, v)) : v.dyn < root.extent + target.dyn := by
  rw [deserializeBool_pd env hu t ht] at h
  cases hp : pd env root false t target [] with
  | ub => rw [hp] at h; cases h
  | threw s e => rw [hp] at h; cases h
  | done o w =>
    rw [hp] at h
    cases h
    exact read_size env hu hn hs root t ht _ _ _ _ _ hp

/-- **C92, partial.** The same for the variant that throws, which starts from a new variable.

Missing: shared pointers. -/
theorem C92_throw_partial (env : Env) (hu : env.Unshared) (hn : env.DistinctNames) (hs : env.Slim) (t : Ty) (ht : t.unshared = true) (root : Json)
    (next : Nat) (v : Val) (h : deserializeThrow env t root next = .returned v) : v.dyn < root.extent := by
  rw [deserializeThrow_pd env hu t ht] at h
  cases hp : pd env root true t (env.fresh t) [] with
  | ub => rw [hp] at h; cases h
  | threw s e => rw [hp] at h; cases h
  | done o w =>
    rw [hp] at h
    cases h
    have := read_size env hu hn hs root t ht _ _ _ _ _ hp
    rw [hs.fresh] at this
    exact this

/-- **C92.** A document is no larger than its text. -/
theorem C92_document (C : NumConv) (j : Json) (s : Str) (h : Denotes C j s) : j.extent ≤ s.length := text_length h

theorem readString_length {C : NumConv} (R : Reader C) {s : Str} {j : Json} (h : R.readString s = .document j) : j.extent ≤ s.length := by
  have h1 := text_length ((R.accepts _ _).1 h)
  have h2 := cstr_length_le s
  omega

/-- **C92, partial.** From text: the value is no larger than the text and what was in the variable before.

Missing: shared pointers. -/
theorem C92_text_partial (C : NumConv) (R : Reader C) (env : Env) (hu : env.Unshared) (hn : env.DistinctNames) (hs : env.Slim) (t : Ty)
    (ht : t.unshared = true) (s : Str) (target : Val) (next : Nat) (ok : Bool) (v : Val) (h : deserText R env t s target next = some (ok, v)) :
    v.dyn ≤ s.length + target.dyn := by
  unfold deserText at h
  cases hr : R.readString s with
  | document j =>
    rw [hr] at h
    have h1 := C92_read_partial env hu hn hs t ht j target next ok v h
    have h2 := readString_length R hr
    omega
  | broken es => rw [hr] at h; cases h; omega

/-! ## The parser -/

/-- **C92.** At every moment of a parse, what is in the variable is no larger than the text up to this point, and what was in the variable
before. This includes shared pointers and vectors of pairs. -/
theorem C92_moment (env : Env) (hs : env.Slim) (host : Host) (H : Heap) (t : Ty) (target : Val) (hty : HasTy env H target t ∨ target.dyn = 0) (n : Nat)
    (es : List Event) (s : PState) (h : prun env host (start env t target n) es = .go s) : s.target.dyn ≤ extents es + target.dyn := by
  have hn : Neat env t target := hty.elim (neat_of_hasTy env H target t) fun h => neat_of_empty env target h t
  have h1 := start_size env hs t target n hn
  have h2 := prun_size env hs host es h1.1 h
  have h3 := target_size env h2.1
  omega

/-- **C92.** What a parse stores is no larger than the document and what was in the variable before. -/
theorem C92_parse (env : Env) (hs : env.Slim) (host : Host) (H : Heap) (t : Ty) (target : Val) (hty : HasTy env H target t ∨ target.dyn = 0) (n : Nat)
    (j : Json) (v : Val) (h : parseBool env host t (.document j) target n = .accepted v) : v.dyn ≤ j.extent + target.dyn := by
  unfold parseBool at h
  split at h
  · cases hp : prun env host (start env t target n) (Feed.document j).events with
    | go s =>
      rw [hp] at h
      cases h
      have := C92_moment env hs host H t target hty n _ s hp
      rwa [Feed.events, extents_events] at this
    | _ => rw [hp] at h; cases h
  · cases h

/-- **C92.** Also what a parse leaves in the variable when it fails or throws is no larger than the text read so far and what was in the
variable before. -/
theorem C92_left (env : Env) (hs : env.Slim) (host : Host) (H : Heap) (t : Ty) (target : Val) (hty : HasTy env H target t ∨ target.dyn = 0) (n : Nat)
    (feed : Feed) : (leftBehind env host t feed target n).dyn ≤ extents feed.events + target.dyn := by
  unfold leftBehind
  split
  · have hn : Neat env t target := hty.elim (neat_of_hasTy env H target t) fun h => neat_of_empty env target h t
    have h1 := start_size env hs t target n hn
    have h2 := left_size env hs host feed.events h1.1
    omega
  · omega

/-- **C92.** From text. -/
theorem C92_parse_text (C : NumConv) (R : Reader C) (env : Env) (hs : env.Slim) (host : Host) (H : Heap) (t : Ty) (target : Val)
    (hty : HasTy env H target t ∨ target.dyn = 0) (n : Nat) (s : Str) (v : Val) (h : parseText R env host t s target n = .accepted v) :
    v.dyn ≤ s.length + target.dyn := by
  unfold parseText at h
  cases hr : R.readString s with
  | document j =>
    rw [hr] at h
    have h1 := C92_parse env hs host H t target hty n j v h
    have h2 := readString_length R hr
    omega
  | broken es =>
    rw [hr] at h
    unfold parseBool at h
    split at h
    · split at h <;> cases h
    · cases h

/-- **C92.** The variant that returns the value starts from a new variable, so that the value is no larger than the text. -/
theorem C92_parse_throw (C : NumConv) (R : Reader C) (env : Env) (hs : env.Slim) (host : Host) (t : Ty) (n : Nat) (s : Str) (v : Val)
    (h : parseTextThrow R env host t s n = .returned v) : v.dyn ≤ s.length := by
  unfold parseTextThrow parseThrow at h
  have h0 := hs.fresh t
  cases hp : parseBool env host t (R.readString s) (env.fresh t) n with
  | accepted w =>
    rw [hp] at h
    cases h
    have := C92_parse_text C R env hs host (fun _ => none) t (env.fresh t) (.inr h0) n s v hp
    omega
  | _ => rw [hp] at h; cases h

/-! ## Members with the same name -/

/-- `struct Triple { std::string a, b, c; }` that declares all its members under the name `a`. -/
def tripleEnv : Env := { Demo.env with classes := fun c => match c with
  | 0 => ⟨lit "Triple", [⟨lit "a", .required, tStr⟩, ⟨lit "a", .required, tStr⟩, ⟨lit "a", .required, tStr⟩]⟩
  | _ => ⟨lit "Empty", []⟩ }

/-- **C92, negation.** The hypothesis on the names of members is needed: the DOM reader looks for a member of the document by its name and
reads it once for each member of the class with this name. (The parser gives each member of the document to one member of the class.) -/
theorem C92_same_names (s : Str) (next : Nat) : ∃ v, deserializeThrow tripleEnv (.cls 0) (.obj [(lit "a", .str s)]) next = .returned v ∧
    v.dyn = 3 * s.length ∧ (Json.obj [(lit "a", .str s)]).extent = s.length + 4 := by
  refine ⟨.obj [.prim (.str s), .prim (.str s), .prim (.str s)], rfl, ?_, ?_⟩
  · simp only [Val.dyn, partsDyn, PVal.dyn]; omega
  · simp [Json.extent, extentFields, lit]; omega

/-! ## Examples -/

theorem demo_slim : Demo.env.Slim := ⟨fun _ => rfl, fun _ => rfl⟩

/-- `struct Note { std::string title; std::vector<std::string> lines; std::optional<std::vector<std::byte>> data; }` -/
def noteEnv : Env := { Demo.env with classes := fun c => match c with
  | 0 => ⟨lit "Note", [⟨lit "title", .required, tStr⟩, ⟨lit "lines", .required, .vec tStr⟩, ⟨lit "data", .optional, .prim .bytes⟩]⟩
  | _ => ⟨lit "Empty", []⟩ }

theorem note_unshared : noteEnv.Unshared := by
  intro c m hm
  match c with
  | 0 => revert m; decide
  | n + 1 => cases hm

theorem note_distinct : noteEnv.DistinctNames := by
  intro c
  match c with
  | 0 => decide
  | n + 1 => exact List.nodup_nil

/-- `{"title": "ab", "lines": ["c", ""], "data": "AAAA"}` -/
def noteDoc : Json := .obj [(lit "title", .str (lit "ab")), (lit "lines", .arr [.str (lit "c"), .str []]), (lit "data", .str (lit "AAAA"))]

example : noteDoc.extent = 30 := by decide +kernel

example : deserializeThrow noteEnv (.cls 0) noteDoc 0 =
    .returned (.obj [.prim (.str (lit "ab")), .seq [.prim (.str (lit "c")), .prim (.str [])], .present (.prim (.bytes [0, 0, 0]))]) := by
  with_unfolding_all rfl

example (v : Val) (h : deserializeThrow noteEnv (.cls 0) noteDoc 0 = .returned v) : v.dyn < noteDoc.extent :=
  C92_throw_partial noteEnv note_unshared note_distinct ⟨fun _ => rfl, fun _ => rfl⟩ (.cls 0) rfl noteDoc 0 v h

/-- Base64 text that is refused is left decoded in the variable: three bytes here. -/
example (v : Val) (h : deserializeBool noteEnv (.prim .bytes) (.str (lit "AAA*")) (.prim (.bytes [1])) 0 = some (false, v)) : v.dyn < 6 :=
  C92_read_partial noteEnv note_unshared note_distinct ⟨fun _ => rfl, fun _ => rfl⟩ (.prim .bytes) rfl _ _ 0 false v h

example : deserializeBool noteEnv (.prim .bytes) (.str (lit "AAA*")) (.prim (.bytes [1])) 0 = some (false, .prim (.bytes [0, 0, 0])) := by
  with_unfolding_all rfl

/-- A repeated key of a map: the second value is appended to the first one, `{"k": ["a"], "k": ["b"]}`. -/
def againDoc : Json := .obj [(lit "k", .arr [.str (lit "a")]), (lit "k", .arr [.str (lit "b")])]

example : parseBool Demo.env host (.map false (.vec tStr)) (.document againDoc) (.map []) 0 =
    .accepted (.map [(lit "k", .seq [.prim (.str (lit "a")), .prim (.str (lit "b"))])]) := by
  with_unfolding_all rfl

example : (Val.map [(lit "k", .seq [.prim (.str (lit "a")), .prim (.str (lit "b"))])]).dyn = 6 ∧ againDoc.extent = 11 := by decide +kernel

example (v : Val) (h : parseBool Demo.env host (.map false (.vec tStr)) (.document againDoc) (.map []) 0 = .accepted v) : v.dyn ≤ againDoc.extent + 0 :=
  C92_parse Demo.env demo_slim host heap _ _ (.inr rfl) 0 _ v h

/-- Shared pointers and a variable that is not empty. -/
example (v : Val) (h : parseBool Demo.env host (.vec (.sptr tStr)) (.document (.arr [.str (lit "x")])) (.seq [.sptr 0 (.prim (.str (lit "old")))]) 1 = .accepted v) :
    v.dyn ≤ 3 + 4 :=
  C92_parse Demo.env demo_slim host (fun a => if a = 0 then some (tStr, .prim (.str (lit "old"))) else none) _ _
    (.inl (by simp [HasTy, AllTy, PrimTy, tStr])) 1 _ v h

/-- A text that ends early. -/
example : (leftBehind Demo.env host (.vec (.vec tStr)) (.broken ((events (.arr [.arr [.str (lit "ab")], .arr []])).take 3)) (.seq []) 0).dyn ≤ 5 + 0 :=
  C92_left Demo.env demo_slim host heap _ _ (.inr rfl) 0 _

end Verif.Props
