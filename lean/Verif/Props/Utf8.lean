import Verif.Utf8
import Verif.Props.Text

/-!
# C79: texts in UTF-8

Specification: the grammar of RFC 3629 section 4 (`Utf8`).
-/

namespace Verif.Props
open Verif.Core Verif.Text Verif.Numeric Demo

/-- **C79.** The grammar is what it should be: its words are the encodings of sequences of Unicode scalar values, by the arithmetic of RFC
3629 section 3. -/
theorem C79_grammar (s : Str) : Utf8 s ↔ ∃ ns : List Nat, (∀ n ∈ ns, n < 0x110000 ∧ ¬ (0xD800 ≤ n ∧ n ≤ 0xDFFF)) ∧ s = ns.flatMap utf8 :=
  utf8_iff s

/-- "ű€😀" -/
example : Utf8 [0xC5, 0xB1, 0xE2, 0x82, 0xAC, 0xF0, 0x9F, 0x98, 0x80] :=
  (C79_grammar _).2 ⟨[0x171, 0x20AC, 0x1F600], by decide +kernel, by decide +kernel⟩

theorem not_utf8_ff (r : Str) : ¬ Utf8 (0xFF :: r) := by
  intro h
  generalize hs : (0xFF :: r : Str) = s at h
  cases h with
  | nil => cases hs
  | cons hc _ =>
    cases hc with
    | one a h => cases hs; exact absurd h (by decide)
    | two a b h h' => cases hs; exact absurd h' (by decide)
    | three a b c h => cases hs; exact absurd h (by unfold IsTail; simp)
    | four a b c d h => cases hs; exact absurd h (by unfold IsTail; simp)

/-- **C79.** For every JSON text, written by the library or not: it is valid iff all strings and keys of the document are, whether they stand
in the text as they are or with escapes. -/
theorem C79_text_iff (C : NumConv) (doc : Json) (s : Str) (h : Denotes C doc s) : Utf8 s ↔ ∀ x ∈ strings doc, Utf8 x := h.utf8_iff

/-- `["\u20AC"]`, and the same without an escape. -/
theorem euro_denotes (C : NumConv) : Denotes C (.arr [.str [0xE2, 0x82, 0xAC]]) (lit "[\"\\u20AC\"]") ∧
    Denotes C (.arr [.str [0xE2, 0x82, 0xAC]]) ([91, 34, 0xE2, 0x82, 0xAC, 34, 93]) := by
  refine ⟨⟨[], _, [], ws_nil, .arr (.one (w1 := []) (w2 := []) ws_nil (.str (.unicode 50 48 65 67 0x20AC (by decide +kernel) (by decide) .nil)) ws_nil), ws_nil, by decide +kernel⟩,
    ⟨[], _, [], ws_nil, .arr (.one (w1 := []) (w2 := []) ws_nil (.str (t := [0xE2, 0x82, 0xAC]) ?_) ws_nil), ws_nil, rfl⟩⟩
  exact .plain _ (by decide) (by decide) (by decide) (.plain _ (by decide) (by decide) (by decide) (.plain _ (by decide) (by decide) (by decide) .nil))

example : Utf8 (lit "[\"\\u20AC\"]") := by
  refine (C79_text_iff demoConv _ _ (euro_denotes demoConv).1).2 ?_
  exact (C79_text_iff demoConv _ _ (euro_denotes demoConv).2).1 ((C79_grammar _).2 ⟨[91, 34, 0x20AC, 34, 93], by decide +kernel, by decide +kernel⟩)

/-- **C79.** What `write_to_string` writes is valid iff all strings and keys of the document are. -/
theorem C79_written_iff (C : NumConv) (env : Env) (hfair : env.Fair) (H : Heap) (v : Val) (t : Ty) (ht : HasTy env H v t) (hf : finite v = true)
    (doc : Json) (hdoc : serializeToDocument env t v = some (some doc)) (hC : ∀ f ∈ doubles doc, C.Faithful f) (before : Str) :
    ∃ s, writeText C env t v before = some (true, s) ∧ (Utf8 s ↔ ∀ x ∈ strings doc, Utf8 x) := by
  obtain ⟨h1, h2⟩ := written_denotes C env hfair H v t ht hf doc hdoc hC
  exact ⟨_, h1 before, h2.utf8_iff⟩

/-- **C79 (partial).** The text is valid if the strings and keys of the value and the names of the program are; base64 texts, references and
times and dates of the years 0 to 9999 add nothing else.

Missing: strings that are not valid (`C79_invalid_written`) and times after the year 9999 (`C79_late_time`). -/
theorem C79_written_partial (C : NumConv) (env : Env) (hclk : 0 < env.clk) (hfair : env.Fair) (H : Heap) (v : Val) (t : Ty) (ht : HasTy env H v t)
    (hf : finite v = true) (hv : ∀ x, Contributes env v t x → Utf8 x) (before : Str) :
    ∃ doc s, serializeToDocument env t v = some (some doc) ∧ ((∀ f ∈ doubles doc, C.Faithful f) → writeText C env t v before = some (true, s) ∧ Utf8 s) := by
  obtain ⟨σ, doc, -, h1, -⟩ := serOk env hfair H v t [] [] [] ht hf
  have hdoc : serializeToDocument env t v = some (some doc) := by rw [serializeToDocument, h1]
  have hs := ser_utf8 env hclk v t hv [] [] (by intro n hn; cases hn) (by intro p hp; cases hp)
  rw [h1] at hs
  refine ⟨doc, documentToString C doc, hdoc, fun hC => ?_⟩
  obtain ⟨h2, h3⟩ := written_denotes C env hfair H v t ht hf doc hdoc hC
  exact ⟨h2 before, h3.utf8_iff.2 (hs.2 doc rfl)⟩

/-- Two pointers to one object below a key with a letter that is not in ASCII; the reference is the path with that key. -/
def accentVal : Val := .map [([0xC5, 0xB1], .sptr 1 (.prim (.str [0xE2, 0x82, 0xAC]))), ([0xC5, 0xB2], .sptr 1 (.prim (.str [0xE2, 0x82, 0xAC])))]

def accentHeap : Heap := fun a => if a = 1 then some (.prim .str, .prim (.str [0xE2, 0x82, 0xAC])) else none

theorem accent_typed : HasTy Demo.env accentHeap accentVal (.map true (.sptr (.prim .str))) := by
  simp [accentVal, HasTy, ValsTy, Ascending, accentHeap, PrimTy, strLess]

theorem accent_utf8 (x : Str) (h : Contributes Demo.env accentVal (.map true (.sptr (.prim .str))) x) : Utf8 x := by
  have two : Utf8 [0xC5, 0xB1] := (C79_grammar _).2 ⟨[0x171], by decide +kernel, by decide +kernel⟩
  have two' : Utf8 [0xC5, 0xB2] := (C79_grammar _).2 ⟨[0x172], by decide +kernel, by decide +kernel⟩
  have three : Utf8 [0xE2, 0x82, 0xAC] := (C79_grammar _).2 ⟨[0x20AC], by decide +kernel, by decide +kernel⟩
  have inner : ∀ x, Contributes Demo.env (.sptr 1 (.prim (.str [0xE2, 0x82, 0xAC]))) (.sptr (.prim .str)) x → Utf8 x := by
    intro x h
    cases h with
    | sptr _ _ _ _ h =>
      cases h
      exact three
  unfold accentVal at h
  cases h with
  | mapKey _ _ _ _ v hm =>
    simp only [List.mem_cons, Prod.mk.injEq, List.not_mem_nil, or_false] at hm
    rcases hm with ⟨rfl, -⟩ | ⟨rfl, -⟩
    · exact two
    · exact two'
  | map _ _ _ _ v _ hm h =>
    simp only [List.mem_cons, Prod.mk.injEq, List.not_mem_nil, or_false] at hm
    rcases hm with ⟨-, rfl⟩ | ⟨-, rfl⟩ <;> exact inner x h

example : ∃ s, writeText demoConv Demo.env (.map true (.sptr (.prim .str))) accentVal [] = some (true, s) ∧ Utf8 s := by
  obtain ⟨doc, s, h1, h2⟩ := C79_written_partial demoConv Demo.env (by decide) Demo.fair accentHeap accentVal _ accent_typed (by decide +kernel) accent_utf8 []
  refine ⟨s, h2 ?_⟩
  have : serializeToDocument Demo.env (.map true (.sptr (.prim .str))) accentVal =
    some (some (.obj [([0xC5, 0xB1], .str [0xE2, 0x82, 0xAC]), ([0xC5, 0xB2], .obj [(lit "$ref", .str [47, 0xC5, 0xB1])])])) := rfl
  rw [this] at h1
  cases h1
  intro f hf
  simp [doubles, doublesFields] at hf

/-- **C79, negation.** A string with the byte FF is written without an error, and the text is not valid. -/
theorem C79_invalid_written (C : NumConv) (env : Env) (before : Str) :
    ∃ s, writeText C env (.prim .str) (.prim (.str [0xFF])) before = some (true, s) ∧ Denotes C (.str [0xFF]) s ∧ ¬ Utf8 s := by
  have h : Denotes C (.str [0xFF]) [34, 0xFF, 34] :=
    ⟨[], _, [], ws_nil, .str (.plain 0xFF (by decide) (by decide) (by decide) .nil), ws_nil, rfl⟩
  exact ⟨[34, 0xFF, 34], rfl, h, fun hs => not_utf8_ff [] (h.utf8_iff.1 hs _ (by simp [strings]))⟩

/-- **C79, negation.** All readers accept a text that is not valid. -/
theorem C79_invalid_read (C : NumConv) (R : Reader C) (env : Env) (host : Host) (hroom : room host [] (.parser (.prim .str)) = true) (target : Val) (n : Nat) :
    ∃ s, ¬ Utf8 s ∧ deserText R env (.prim .str) s target n = some (true, .prim (.str [0xFF])) ∧
      parseText R env host (.prim .str) s target n = .accepted (.prim (.str [0xFF])) := by
  obtain ⟨s, -, h1, h2⟩ := C79_invalid_written C env []
  have h3 := readString_of R h1
  refine ⟨s, h2, ?_, ?_⟩
  · rw [deserText, h3]
    rfl
  · rw [parseText, h3]
    simp only [parseBool, hroom, if_true]
    rfl

/-- A clock with microseconds, where the buffer of the year happens to contain FF. -/
def lateEnv : Env := { Demo.env with clk := 1000000, junk := fun _ => [0xFF] }

/-- **C79, negation.** The text of a time after the year 9999 need not be valid. -/
theorem C79_late_time (C : NumConv) : HasTy lateEnv (fun _ => none) (.prim (.time (endSecond * 1000000))) (.prim .time) ∧
    ∃ s, writeText C lateEnv (.prim .time) (.prim (.time (endSecond * 1000000))) [] = some (true, s) ∧ ¬ Utf8 s := by
  refine ⟨by simp only [HasTy, PrimTy]; decide, ?_⟩
  have ht : DateTime.toIsoDatetime lateEnv.junk lateEnv.clk (endSecond * 1000000) = 0xFF :: lit "-01-01T00:00:00Z" := by decide +kernel
  have hd : serializeToDocument lateEnv (.prim .time) (.prim (.time (endSecond * 1000000))) = some (some (.str (0xFF :: lit "-01-01T00:00:00Z"))) := by
    rw [← ht]
    rfl
  obtain ⟨s, h1, h2⟩ := C79_written_iff C lateEnv (fun _ _ _ => List.reverse_perm _) (fun _ => none) _ _ (by simp only [HasTy, PrimTy]; decide) rfl _ hd
    (by intro f hf; simp [doubles] at hf) []
  exact ⟨s, h1, fun hs => not_utf8_ff (lit "-01-01T00:00:00Z") (h2.1 hs _ (by simp [strings]))⟩

example : ∃ s, ¬ Utf8 s ∧ deserText (someReader demoConv) Demo.env (.prim .str) s (.prim .null) 0 = some (true, .prim (.str [0xFF])) ∧
    parseText (someReader demoConv) Demo.env host (.prim .str) s (.prim .null) 0 = .accepted (.prim (.str [0xFF])) :=
  C79_invalid_read demoConv _ Demo.env host (by decide +kernel) (.prim .null) 0

end Verif.Props
