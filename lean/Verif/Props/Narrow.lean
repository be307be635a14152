import Verif.Narrow
import Verif.Props.RoundTrip
import Verif.Props.Base64

/-!
# C73: strings of any length

The model with the conversions of lengths to `rapidjson::SizeType` (`serializeToDocumentN`, `writeToStringN`) against the one without.
-/

namespace Verif.Props
open Verif.Core Verif.Numeric Verif.EnumConv Verif.Demo

/-- **C73.** `serialize_to_document` yields the document in full exactly if all its strings and keys are shorter than 2^32 bytes. Otherwise
it succeeds all the same. -/
theorem C73_document_partial (env : Env) (t : Ty) (v : Val) :
    (∀ doc, serializeToDocument env t v = some (some doc) →
      ∃ doc', serializeToDocumentN env t v = some (some doc') ∧ (doc' = doc ↔ Short doc)) ∧
    (serializeToDocument env t v = some none ↔ serializeToDocumentN env t v = some none) ∧
    (serializeToDocument env t v = none ↔ serializeToDocumentN env t v = none) := by
  rw [documentN_eq]
  cases serializeToDocument env t v with
  | none => exact ⟨nofun, by simp, by simp⟩
  | some r =>
    cases r with
    | none => exact ⟨nofun, by simp, by simp⟩
    | some doc =>
      refine ⟨fun doc' h => ?_, by simp, by simp⟩
      cases h
      exact ⟨cut doc, rfl, cut_iff doc⟩

example : ∃ doc, serializeToDocumentN Demo.env (.vec tStr) (.seq [.prim (.str (lit "one")), .prim (.str [])]) = some (some doc) ∧
    doc = .arr [.str (lit "one"), .str []] := by
  obtain ⟨doc, h1, h2⟩ := (C73_document_partial Demo.env (.vec tStr) (.seq [.prim (.str (lit "one")), .prim (.str [])])).1 (.arr [.str (lit "one"), .str []]) rfl
  exact ⟨doc, h1, h2.2 (by simp [Short, ShortAll]; decide)⟩

/-- All characters of the event reach the writer. -/
def Brief : Event → Prop
  | .str s => s.length < 2 ^ 32
  | .key k => k.length < 2 ^ 32
  | _ => True

theorem map_self {α : Type} {f : α → α} {l : List α} : l.map f = l ↔ ∀ a ∈ l, f a = a := by
  induction l with
  | nil => simp
  | cons a l ih => simp [ih]

/-- **C73.** `write_to_string` gives all characters to the writer exactly if all strings and keys are shorter than 2^32 bytes. Otherwise it
succeeds all the same. -/
theorem C73_text_partial (env : Env) (t : Ty) (v : Val) (before es : List Event) :
    (writeToString env t v before = some (true, es) → ∃ es', writeToStringN env t v before = some (true, es') ∧ (es' = es ↔ ∀ e ∈ es, Brief e)) ∧
    (writeToString env t v before = some (false, es) ↔ writeToStringN env t v before = some (false, es)) := by
  unfold writeToString writeToStringN
  rw [wrN_eq]
  have cutb : ∀ e, cutEvent e = e ↔ Brief e := by
    intro e
    cases e <;> simp [cutEvent, Brief, narrow_iff]
  cases wr env v t [] [] with
  | ub => exact ⟨nofun, Iff.rfl⟩
  | done σ ok es1 =>
    cases ok with
    | false => exact ⟨nofun, Iff.rfl⟩
    | true =>
      refine ⟨fun h => ?_, ⟨nofun, nofun⟩⟩
      cases h
      refine ⟨es.map cutEvent, rfl, ⟨fun h e he => (cutb e).1 ?_, fun h => ?_⟩⟩
      · exact map_self.1 h e he
      · exact map_self.2 fun e he => (cutb e).2 (h e he)

example : writeToStringN Demo.env (.vec tStr) (.seq [.prim (.str (lit "one"))]) [] = some (true, [.startArr, .str (lit "one"), .endArr]) := by
  obtain ⟨es, h1, h2⟩ := (C73_text_partial Demo.env (.vec tStr) (.seq [.prim (.str (lit "one"))]) [] [.startArr, .str (lit "one"), .endArr]).1 rfl
  rw [h1, h2.2]
  intro e he
  simp only [List.mem_cons, List.not_mem_nil, or_false] at he
  rcases he with rfl | rfl | rfl
  · trivial
  · show (lit "one").length < 2 ^ 32
    decide
  · trivial

/-- **C73.** The round trip of C26 with all conversions.

Missing: documents with longer strings, and values that cannot be read back anyway (C26). -/
theorem C73_roundtrip_partial (env : Env) (hfair : env.Fair) (hclk : 0 < env.clk) (hdist : env.DistinctNames) (H : Heap) (v : Val) (t : Ty)
    (ht : HasTy env H v t) (hf : finite v = true) (hr : Readable env v t) (hs : addrs v ≠ [] → env.PlainNames ∧ PathSafe v) :
    ∃ doc, serializeToDocument env t v = some (some doc) ∧ (Short doc →
      serializeToDocumentN env t v = some (some doc) ∧
      ∀ next, ∃ ρ, (∀ a ∈ addrs v, ∀ b ∈ addrs v, ρ a = ρ b → a = b) ∧
        deserializeThrow env t doc next = .returned (rename ρ v) ∧
        ∀ target, deserializeBool env t doc target next = some (true, rename ρ v)) := by
  obtain ⟨doc, h1, h2⟩ := C26_dom_roundtrip_partial env hfair hclk hdist H v t ht hf hr hs
  have h3 : serializeToDocumentN env t v = some (some (cut doc)) := by rw [documentN_eq, h1]; rfl
  exact ⟨doc, h1, fun h => ⟨by rw [h3, (cut_iff doc).2 h], h2⟩⟩

example (next : Nat) : ∃ doc ρ, serializeToDocumentN Demo.env (.vec (.cls 2)) crowd = some (some doc) ∧
    deserializeThrow Demo.env (.vec (.cls 2)) doc next = .returned (rename ρ crowd) := by
  obtain ⟨doc, h1, h2⟩ := C73_roundtrip_partial Demo.env fair (by decide) demo_distinct heap _ _ ty_crowd (by decide +kernel) crowd_readable (fun _ => ⟨demo_plain, crowd_safe⟩)
  have e : serializeToDocument Demo.env (.vec (.cls 2)) crowd = some (some (.arr [
    .obj [(lit "left", .obj [(lit "id", .num (.int 7)), (lit "note", .str (lit "ok")), (lit "count", .num (.int 2))]),
      (lit "right", .obj [(lit "id", .num (.int 8)), (lit "count", .num (.int 0))])],
    .obj [(lit "left", .obj [(lit "$ref", .str (lit "/0/right"))]), (lit "right", .obj [(lit "$ref", .str (lit "/0/left"))])]])) := rfl
  rw [e] at h1
  cases h1
  obtain ⟨h3, h4⟩ := h2 (by simp only [Short, ShortAll, ShortFields, and_true]; decide)
  obtain ⟨ρ, _, h5, _⟩ := h4 next
  exact ⟨_, ρ, h3, h5⟩

/-- `n` characters `a`. -/
def longStr (n : Nat) : Str := List.replicate n 97

theorem narrow_long (n : Nat) : narrow (longStr n) = longStr (n % 2 ^ 32) := by
  unfold narrow longStr sizeRange
  rw [List.length_replicate, List.take_replicate, Nat.min_eq_left (Nat.mod_le _ _)]

theorem longStr_inj {m n : Nat} (h : longStr m = longStr n) : m = n := by
  have := congrArg List.length h
  simpa [longStr] using this

/-- **C73, negation.** A string of 2^32 + n bytes is written as its first n bytes by both serializers, which report success, and read back
as these. -/
theorem C73_long_string (env : Env) (n next : Nat) (hn : n < 2 ^ 32) : ∃ s doc w, serializeToDocumentN env tStr (.prim (.str s)) = some (some doc) ∧
    writeToStringN env tStr (.prim (.str s)) [] = some (true, events doc) ∧
    deserializeThrow env tStr doc next = .returned (.prim (.str w)) ∧ s.length = 2 ^ 32 + n ∧ w.length = n := by
  have h1 : serializeToDocumentN env tStr (.prim (.str (longStr (2 ^ 32 + n)))) = some (some (.str (longStr n))) := by
    rw [documentN_eq]
    show some (some (cut (.str (longStr (2 ^ 32 + n))))) = _
    rw [cut, narrow_long, Nat.add_mod_left, Nat.mod_eq_of_lt hn]
  refine ⟨longStr (2 ^ 32 + n), .str (longStr n), longStr n, h1, ?_, rfl, List.length_replicate, List.length_replicate⟩
  unfold writeToStringN
  rw [wrN_eq]
  show some (true, [cutEvent (.str (longStr (2 ^ 32 + n)))]) = _
  rw [cutEvent, narrow_long, Nat.add_mod_left, Nat.mod_eq_of_lt hn]
  rfl

/-- **C73, negation.** 3 GiB of binary data are written as the empty string, which is the text of no data. -/
theorem C73_long_bytes (env : Env) (next : Nat) (bs : Str) (hb : bs.length = 3 * 2 ^ 30) :
    serializeToDocumentN env (.prim .bytes) (.prim (.bytes bs)) = some (some (.str [])) ∧
    deserializeThrow env (.prim .bytes) (.str []) next = .returned (.prim (.bytes [])) := by
  refine ⟨?_, rfl⟩
  rw [documentN_eq]
  show some (some (cut (.str (Base64.encode env.endian env.foreign bs)))) = _
  have h := C02_base64_length env.endian env.foreign bs
  rw [hb] at h
  have h0 : (Base64.encode env.endian env.foreign bs).length % sizeRange = 0 := by rw [h]; rfl
  rw [cut, narrow, h0, List.take_zero]

example : serializeToDocumentN Demo.env (.prim .bytes) (.prim (.bytes (List.replicate (3 * 2 ^ 30) 7))) = some (some (.str [])) :=
  (C73_long_bytes Demo.env 0 _ List.length_replicate).1

/-- **C73, negation.** Different keys become the same, and an entry of the map is lost. -/
theorem C73_long_keys (env : Env) (next : Nat) : ∃ doc,
    serializeToDocumentN env (.map true tInt) (.map [([], .prim (.int 1)), (longStr (2 ^ 32), .prim (.int 2))]) = some (some doc) ∧
    deserializeThrow env (.map true tInt) doc next = .returned (.map [([], .prim (.int 2))]) := by
  refine ⟨.obj [([], .num (.int 1)), ([], .num (.int 2))], ?_, rfl⟩
  rw [documentN_eq]
  show some (some (Json.obj [(narrow [], .num (.int 1)), (narrow (longStr (2 ^ 32)), .num (.int 2))])) = _
  rw [narrow_long]
  rfl

end Verif.Props
