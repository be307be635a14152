import Verif.TextIO
import Verif.Props.ParseBack
import Verif.Props.RoundTrip

/-!
# C59, C60, C63 and the round trips C26, C27 on the level of strings
-/

namespace Verif.Props
open Verif.Core Verif.Numeric Verif.Text Verif.Demo

/-- There is a reader as required, for every conversion of numbers: the grammar is not ambiguous. -/
noncomputable def someReader (C : NumConv) : Reader C := by
  classical
  exact {
    read := fun w => if h : ∃ j, Denotes C j w then .document h.choose else .broken []
    accepts := by
      intro w j
      constructor
      · intro h
        split at h
        · rename_i hw
          cases h
          exact hw.choose_spec
        · cases h
      · intro h
        have hw : ∃ j, Denotes C j w := ⟨j, h⟩
        rw [dif_pos hw, hw.choose_spec.unique h] }

/-- `3.0` and `7.0` are written and read as such. -/
def demoConv : NumConv where
  fmt := fun f => if f = .fin false 1 0 then lit "3.0" else lit "7.0"
  conv := fun s => if s = lit "3.0" then some (.fin false 1 0) else some (.fin false 3 0)

theorem demo_faithful (f : Flt) (h : f = .fin false 1 0 ∨ f = .fin false 3 0) : demoConv.Faithful f := by
  have key : ∀ (c : UInt8) (f : Flt), c ≠ 48 → isDigit c = true → demoConv.conv [c, 46, 48] = some f → NumText demoConv (.dbl f) [c, 46, 48] := by
    intro c f hc hd hv
    exact NumText.real false [c] [46, 48] [] f (.inr ⟨c, [], rfl, hd, hc, rfl⟩) (.inr ⟨[48], rfl, by simp, by decide⟩) (.inl rfl) (by simp) hv
  rcases h with rfl | rfl
  · exact key 51 _ (by decide) (by decide) (by decide)
  · exact key 55 _ (by decide) (by decide) (by decide)

/-! ## C63 -/

theorem writeText_of {C : NumConv} {env : Env} {t : Ty} {v : Val} {doc : Json} {before : List Event} (b : Str)
    (h : writeToString env t v before = some (true, events doc)) : writeText C env t v b = some (true, documentToString C doc) := by
  unfold writeToString at h
  unfold writeText
  cases hw : wr env v t [] [] with
  | ub => rw [hw] at h; simp at h
  | done σ ok es =>
    rw [hw] at h
    cases ok with
    | false => simp at h
    | true =>
      simp only [Option.some.injEq, Prod.mk.injEq, true_and] at h
      subst h
      rfl

/-- What is written is a JSON text of the document. -/
theorem written_denotes (C : NumConv) (env : Env) (hfair : env.Fair) (H : Heap) (v : Val) (t : Ty) (ht : HasTy env H v t) (hf : finite v = true)
    (doc : Json) (hdoc : serializeToDocument env t v = some (some doc)) (hC : ∀ f ∈ doubles doc, C.Faithful f) :
    (∀ before, writeText C env t v before = some (true, documentToString C doc)) ∧ Denotes C doc (documentToString C doc) := by
  obtain ⟨new, doc', tr, h1, h2, -⟩ := serOk env hfair H v t [] [] [] ht hf
  have hd : doc = doc' := by
    rw [serializeToDocument, h1] at hdoc
    simp only [Option.some.injEq] at hdoc
    exact hdoc.symm
  subst hd
  obtain ⟨es, hw, -⟩ := C29_write_succeeds_iff_finite env hfair H t v ht []
  rw [hf] at hw
  obtain ⟨j, hj, rfl⟩ := C28_same_text_partial env t v [] es hw
  rw [hdoc] at hj
  simp only [Option.some.injEq] at hj
  subst hj
  refine ⟨fun b => writeText_of b hw, ?_⟩
  rw [documentToString_eq]
  exact denotes_render C doc (showsProper env H v t [] doc tr h2 ht) hC

/-- **C63.** For every typed value without infinities and NaNs, `write_to_string` succeeds with a text that is, by the
grammar of RFC 8259, a JSON text of the document of `serialize_to_document` and of no other document, provided that
`Writer::Double` writes the floating-point numbers of the document so that they are read as the same numbers. -/
theorem C63_text_denotes_document (C : NumConv) (env : Env) (hfair : env.Fair) (H : Heap) (v : Val) (t : Ty) (ht : HasTy env H v t)
    (hf : finite v = true) (doc : Json) (hdoc : serializeToDocument env t v = some (some doc)) (hC : ∀ f ∈ doubles doc, C.Faithful f)
    (before : Str) : ∃ s, writeText C env t v before = some (true, s) ∧ ∀ j, Denotes C j s ↔ j = doc := by
  obtain ⟨h1, h2⟩ := written_denotes C env hfair H v t ht hf doc hdoc hC
  exact ⟨_, h1 before, fun j => ⟨fun h => h.unique h2, fun h => h ▸ h2⟩⟩

theorem good_point : HasTy Demo.env heap goodPoint (.cls 0) := by
  simp only [goodPoint, HasTy, Env.members, Demo.env, point, MembersTy, PrimTy, and_true]
  decide

example : ∃ s, writeText demoConv Demo.env (.cls 0) goodPoint (lit "before") = some (true, s) ∧
    s = lit "{\"x\":3.0,\"y\":7.0}" ∧ ∀ j, Denotes demoConv j s ↔
      j = .obj [(lit "x", .num (.dbl (.fin false 1 0))), (lit "y", .num (.dbl (.fin false 3 0)))] := by
  obtain ⟨s, h1, h2⟩ := C63_text_denotes_document demoConv Demo.env fair heap goodPoint (.cls 0) good_point (by decide +kernel)
    (.obj [(lit "x", .num (.dbl (.fin false 1 0))), (lit "y", .num (.dbl (.fin false 3 0)))]) rfl
    (by intro f hf; exact demo_faithful f (by simpa [doubles, doublesFields] using hf)) (lit "before")
  refine ⟨s, h1, ?_, h2⟩
  have h3 : writeText demoConv Demo.env (.cls 0) goodPoint (lit "before") = some (true, lit "{\"x\":3.0,\"y\":7.0}") := by rfl
  rw [h3] at h1
  simp at h1
  exact h1.symm

/-- **C63.** The document with its texts: `document_to_string` of documents that can be written, whether they come from
`serialize_to_document` or not; all strings and keys, with any bytes, are represented. -/
theorem C63_document_text (C : NumConv) (doc : Json) (hp : doc.proper = true) (hC : ∀ f ∈ doubles doc, C.Faithful f) (j : Json) :
    Denotes C j (documentToString C doc) ↔ j = doc := by
  have h := denotes_render C doc hp hC
  rw [← documentToString_eq] at h
  exact ⟨fun h' => h'.unique h, fun e => e ▸ h⟩

example (C : NumConv) (j : Json) : Denotes C j (lit "[\"a\\\"\\u0000\",-7]") ↔ j = .arr [.str [97, 34, 0], .num (.int (-7))] := by
  have h := C63_document_text C (.arr [.str [97, 34, 0], .num (.int (-7))]) (by decide) (by simp [doubles, doublesAll]) j
  have e : documentToString C (.arr [.str [97, 34, 0], .num (.int (-7))]) = lit "[\"a\\\"\\u0000\",-7]" := by rfl
  rwa [e] at h

/-- **C63.** When `write_to_string` fails, the string is left as it was. -/
theorem C63_failure_keeps_string (C : NumConv) (env : Env) (hfair : env.Fair) (H : Heap) (v : Val) (t : Ty) (ht : HasTy env H v t)
    (hf : finite v = false) (before : Str) : writeText C env t v before = some (false, before) := by
  obtain ⟨es, hw, -⟩ := C29_write_succeeds_iff_finite env hfair H t v ht []
  rw [hf] at hw
  unfold writeToString at hw
  unfold writeText
  cases h : wr env v t [] [] with
  | ub => rw [h] at hw; simp at hw
  | done σ ok es =>
    cases ok with
    | false => rfl
    | true => rw [h] at hw; simp at hw

example : writeText demoConv Demo.env (.cls 0) badPoint (lit "before") = some (false, lit "before") :=
  C63_failure_keeps_string demoConv Demo.env fair heap badPoint (.cls 0)
    (by simp only [badPoint, HasTy, Env.members, Demo.env, point, MembersTy, PrimTy, and_true]; decide) (by decide +kernel) _

/-! ## C26 and C27 -/

theorem readString_of {C : NumConv} (R : Reader C) {doc : Json} {s : Str} (h : Denotes C doc s) : R.readString s = .document doc := by
  rw [Reader.readString, cstr_noNul h.noNul]
  exact (R.accepts s doc).2 h

/-- **C26 (partial).** The round trip through the text: `deserialize` of the string of `write_to_string`. The conditions are
those of `C26_dom_roundtrip_partial` and that the floating-point numbers survive. -/
theorem C26_string_roundtrip_partial (C : NumConv) (R : Reader C) (env : Env) (hfair : env.Fair) (hclk : 0 < env.clk) (hdist : env.DistinctNames)
    (H : Heap) (v : Val) (t : Ty) (ht : HasTy env H v t) (hf : finite v = true) (hr : Readable env v t)
    (hs : addrs v ≠ [] → env.PlainNames ∧ PathSafe v)
    (hC : ∀ doc, serializeToDocument env t v = some (some doc) → ∀ f ∈ doubles doc, C.Faithful f) (before : Str) :
    ∃ s, writeText C env t v before = some (true, s) ∧
      ∀ next, ∃ ρ, (∀ a ∈ addrs v, ∀ b ∈ addrs v, ρ a = ρ b → a = b) ∧
        deserTextThrow R env t s next = .parsed (.returned (rename ρ v)) ∧
        ∀ target, deserText R env t s target next = some (true, rename ρ v) := by
  obtain ⟨doc, h1, h2⟩ := C26_dom_roundtrip_partial env hfair hclk hdist H v t ht hf hr hs
  obtain ⟨h3, h4⟩ := written_denotes C env hfair H v t ht hf doc h1 (hC doc h1)
  refine ⟨_, h3 before, fun next => ?_⟩
  obtain ⟨ρ, h5, h6, h7⟩ := h2 next
  refine ⟨ρ, h5, ?_, fun target => ?_⟩
  · rw [deserTextThrow, readString_of R h4]; simp only [h6]
  · rw [deserText, readString_of R h4]; simp only [h7]

example (R : Reader demoConv) : ∃ s, writeText demoConv Demo.env (.vec (.cls 2)) crowd [] = some (true, s) ∧
    ∀ next, ∃ ρ, (∀ a ∈ addrs crowd, ∀ b ∈ addrs crowd, ρ a = ρ b → a = b) ∧
      deserTextThrow R Demo.env (.vec (.cls 2)) s next = .parsed (.returned (rename ρ crowd)) ∧
      ∀ target, deserText R Demo.env (.vec (.cls 2)) s target next = some (true, rename ρ crowd) :=
  C26_string_roundtrip_partial demoConv R Demo.env fair (by decide) demo_distinct heap _ _ ty_crowd (by decide +kernel) crowd_readable
    (fun _ => ⟨demo_plain, crowd_safe⟩) (by
      intro doc h f hf
      have h' : doubles doc = [] := by
        have h2 : (serializeToDocument Demo.env (.vec (.cls 2)) crowd).bind (fun o => o.map doubles) = some [] := by decide +kernel
        rw [h] at h2
        simpa using h2
      rw [h'] at hf
      cases hf) []

/-- **C27 (partial).** The round trip through the text: `parse` of the string of `write_to_string`. The conditions are those of
`C27_text_roundtrip_partial` and that the floating-point numbers survive. -/
theorem C27_string_roundtrip_partial (C : NumConv) (R : Reader C) (env : Env) (hfair : env.Fair) (hclk : 0 < env.clk) (hdist : env.DistinctNames)
    (hc : env.BlankCtor) (host : Host) (G : Nat → Prop) (hG : StreamableClasses env G) (hb : TablesBuilt env host) (d : Nat) (hroom : Roomy host d)
    (t : Ty) (hst : Streamable G t) (H : Heap) (v : Val) (ht : HasTy env H v t) (hf : finite v = true) (hp : Parsable env v t) (hd : (addrs v).Nodup)
    (hC : ∀ doc, serializeToDocument env t v = some (some doc) → doc.depth ≤ d ∧ ∀ f ∈ doubles doc, C.Faithful f) (before : Str) :
    ∃ s, writeText C env t v before = some (true, s) ∧
      ∀ n, (∀ target, Blank env t target → ∃ ρ, (∀ a ∈ addrs v, ∀ b ∈ addrs v, ρ a = ρ b → a = b) ∧
          parseText R env host t s target n = .accepted (rename ρ v)) ∧
        (Blank env t (env.fresh t) → ∃ ρ, (∀ a ∈ addrs v, ∀ b ∈ addrs v, ρ a = ρ b → a = b) ∧
          parseTextThrow R env host t s n = .returned (rename ρ v)) := by
  obtain ⟨doc, h1, h2⟩ := C27_text_roundtrip_partial env hfair hclk hdist hc host G hG hb d hroom t hst H v ht hf hp hd []
  obtain ⟨j, hj, he⟩ := C28_same_text_partial env t v [] (events doc) h1
  obtain ⟨h3, h4⟩ := written_denotes C env hfair H v t ht hf j hj (hC j hj).2
  have hjd : j = doc := events_inj _ _ he
  subst hjd
  have key : ∀ target n, Blank env t target → ∃ ρ, (∀ a ∈ addrs v, ∀ b ∈ addrs v, ρ a = ρ b → a = b) ∧
      parseText R env host t (documentToString C j) target n = .accepted (rename ρ v) := by
    intro target n hbl
    obtain ⟨ρ, h5, h6⟩ := h2 (hC j hj).1 target n hbl
    exact ⟨ρ, h5, by rw [parseText, readString_of R h4, h6]⟩
  refine ⟨_, h3 before, fun n => ⟨fun target hbl => key target n hbl, fun hbl => ?_⟩⟩
  obtain ⟨ρ, h5, h6⟩ := key _ n hbl
  refine ⟨ρ, h5, ?_⟩
  rw [parseTextThrow, parseThrow, ← parseText, h6]

example (R : Reader demoConv) : ∃ s, writeText demoConv Demo.env (.cls 4) forest [] = some (true, s) ∧
    ∀ target n, Blank Demo.env (.cls 4) target → ∃ ρ, parseText R Demo.env host (.cls 4) s target n = .accepted (rename ρ forest) := by
  obtain ⟨s, h1, h2⟩ := C27_string_roundtrip_partial demoConv R Demo.env fair (by decide) demo_distinct demo_blank_ctor host streamed streamable_classes
    tables_built 100 host_roomy (.cls 4) (.inr (.inr rfl)) heap forest
    (by simp [forest, HasTy, MembersTy, AllTy, PrimTy, Env.members, Demo.env, tree]; decide) rfl
    (by simp [forest, Parsable, ParsableMembers, ParsableAll, LeafGood, Env.members, Demo.env, tree]) (by decide +kernel)
    (by
      intro doc h
      have h2 : (serializeToDocument Demo.env (.cls 4) forest).bind (fun o => o.map fun d => (decide (d.depth ≤ 100), doubles d)) = some (true, []) := by
        decide +kernel
      rw [h] at h2
      simp only [Option.bind_some, Option.map_some, Option.some.injEq, Prod.mk.injEq, decide_eq_true_eq] at h2
      exact ⟨h2.1, by simp [h2.2]⟩) []
  exact ⟨s, h1, fun target n hbl => let ⟨ρ, _, h⟩ := (h2 n).1 target hbl; ⟨ρ, h⟩⟩

/-! ## C59 -/

/-- **C59, negation in general.** What follows a NUL character is not read by any function that takes a string, although a
string with a NUL character in it is not a JSON text. -/
theorem C59_rest_ignored (C : NumConv) (R : Reader C) (env : Env) (host : Host) (t : Ty) (s rest : Str) :
    ¬ JsonText C (s ++ 0 :: rest) ∧
    (∀ target n, parseText R env host t (s ++ 0 :: rest) target n = parseText R env host t s target n) ∧
    (∀ n, parseTextThrow R env host t (s ++ 0 :: rest) n = parseTextThrow R env host t s n) ∧
    (∀ target next, deserText R env t (s ++ 0 :: rest) target next = deserText R env t s target next) ∧
    (∀ next, deserTextThrow R env t (s ++ 0 :: rest) next = deserTextThrow R env t s next) ∧
    stringToDocument R (s ++ 0 :: rest) = stringToDocument R s := by
  refine ⟨fun ⟨j, h⟩ => h.noNul 0 (by simp) rfl, ?_, ?_, ?_, ?_, ?_⟩ <;>
    intros <;> simp only [parseText, parseTextThrow, deserText, deserTextThrow, stringToDocument, Reader.readString, cstr_append]

/-- The text `1`. -/
theorem one_denotes (C : NumConv) : Denotes C (.num (.int 1)) [49] :=
  ⟨[], [49], [], by simp [Ws], .num (NumText.int false [49] (.inr ⟨49, [], rfl, by decide, by decide, rfl⟩) (by decide)), by simp [Ws], rfl⟩

/-- **C59, negation.** With every reader and on every host with room for a handler, the text `1`, NUL, `x` is read as the number 1. -/
theorem C59_not_whole (C : NumConv) (R : Reader C) (env : Env) (host : Host) (hroom : room host [] (.parser tInt) = true) (target : Val) (n : Nat) :
    ¬ JsonText C [49, 0, 120] ∧ parseText R env host tInt [49, 0, 120] target n = .accepted (.prim (.int 1)) ∧
      deserText R env tInt [49, 0, 120] target n = some (true, .prim (.int 1)) ∧
      deserTextThrow R env tInt [49, 0, 120] n = .parsed (.returned (.prim (.int 1))) := by
  have h := C59_rest_ignored C R env host tInt [49] [120]
  have h1 := readString_of R (one_denotes C)
  refine ⟨h.1, ?_, ?_, ?_⟩
  · rw [show ([49, 0, 120] : Str) = [49] ++ 0 :: [120] from rfl, h.2.1, parseText, h1]
    simp only [parseBool, hroom, if_true]
    rfl
  · rw [show ([49, 0, 120] : Str) = [49] ++ 0 :: [120] from rfl, h.2.2.2.1, deserText, h1]
    rfl
  · rw [show ([49, 0, 120] : Str) = [49] ++ 0 :: [120] from rfl, h.2.2.2.2.1, deserTextThrow, h1]
    rfl

example : parseText (someReader demoConv) Demo.env host tInt [49, 0, 120] (.prim .null) 0 = .accepted (.prim (.int 1)) :=
  (C59_not_whole demoConv _ Demo.env host (by decide +kernel) (.prim .null) 0).2.1

/-- **C59 (partial).** A string without NUL characters is accepted only if the whole string is a JSON text, and the result is that
of the document it denotes.

Missing: strings with a NUL character in them, for which the claim is false (`C59_not_whole`). -/
theorem C59_whole_partial (C : NumConv) (R : Reader C) (env : Env) (host : Host) (t : Ty) (s : Str) (hs : ∀ c ∈ s, c ≠ 0) :
    (∀ target n v, parseText R env host t s target n = .accepted v →
      ∃ doc, Denotes C doc s ∧ parseBool env host t (.document doc) target n = .accepted v) ∧
    (∀ n v, parseTextThrow R env host t s n = .returned v →
      ∃ doc, Denotes C doc s ∧ parseThrow env host t (.document doc) n = .returned v) ∧
    (∀ target next v, deserText R env t s target next = some (true, v) →
      ∃ doc, Denotes C doc s ∧ deserializeBool env t doc target next = some (true, v)) ∧
    (∀ next r, deserTextThrow R env t s next = .parsed r → ∃ doc, Denotes C doc s ∧ deserializeThrow env t doc next = r) ∧
    (∀ live d, stringToDocument R s = some d ∨ stringToDocumentMove R s = some d → d.view true = some live → Denotes C live s) := by
  have key : ∀ doc, R.readString s = .document doc → Denotes C doc s := by
    intro doc h
    rw [Reader.readString, cstr_noNul hs] at h
    exact (R.accepts s doc).1 h
  have bad : ∀ es target n v, parseBool env host t (.broken es) target n ≠ .accepted v := by
    intro es target n v h
    unfold parseBool at h
    split at h
    · split at h <;> cases h
    · cases h
  refine ⟨?_, ?_, ?_, ?_, ?_⟩
  · intro target n v h
    rw [parseText] at h
    cases hr : R.readString s with
    | document doc => rw [hr] at h; exact ⟨doc, key doc hr, h⟩
    | broken es => rw [hr] at h; exact (bad es _ _ _ h).elim
  · intro n v h
    rw [parseTextThrow] at h
    cases hr : R.readString s with
    | document doc => rw [hr] at h; exact ⟨doc, key doc hr, h⟩
    | broken es =>
      rw [hr, parseThrow] at h
      cases hb : parseBool env host t (.broken es) (env.fresh t) n with
      | accepted w => exact (bad es _ _ _ hb).elim
      | rejected | threw | ub => rw [hb] at h; cases h
  · intro target next v h
    rw [deserText] at h
    cases hr : R.readString s with
    | document doc => rw [hr] at h; exact ⟨doc, key doc hr, h⟩
    | broken es => rw [hr] at h; cases h
  · intro next r h
    rw [deserTextThrow] at h
    cases hr : R.readString s with
    | document doc => rw [hr] at h; cases h; exact ⟨doc, key doc hr, rfl⟩
    | broken es => rw [hr] at h; cases h
  · intro live d h hv
    rw [stringToDocument, stringToDocumentMove] at h
    cases hr : R.readString s with
    | document doc =>
      rw [hr] at h
      have hl : doc = live := by
        rcases h with h | h <;> cases h <;> rw [view_ok _ _ (.inr rfl)] at hv <;> cases hv <;> rfl
      exact hl ▸ key doc hr
    | broken es => rw [hr] at h; simp at h

example (C : NumConv) (R : Reader C) : parseText R Demo.env host tInt [49] (.prim .null) 0 = .accepted (.prim (.int 1)) ∧ ∀ c ∈ ([49] : Str), c ≠ 0 := by
  refine ⟨?_, by decide⟩
  rw [← (C59_rest_ignored C R Demo.env host tInt [49] [120]).2.1]
  exact (C59_not_whole C R Demo.env host (by decide +kernel) _ 0).2.1

/-- **C59.** The other direction: what is not accepted as JSON is rejected by every function, with the variable unchanged. -/
theorem C59_malformed_rejected (C : NumConv) (R : Reader C) (env : Env) (host : Host) (t : Ty) (s : Str) (hs : ∀ c ∈ s, c ≠ 0) (hj : ¬ JsonText C s) :
    (∀ target n v, parseText R env host t s target n ≠ .accepted v) ∧ (∀ n v, parseTextThrow R env host t s n ≠ .returned v) ∧
      (∀ target next, deserText R env t s target next = some (false, target)) ∧ (∀ next, deserTextThrow R env t s next = .parseError) ∧
      stringToDocument R s = none ∧ stringToDocumentMove R s = none := by
  obtain ⟨h1, h2, -, -, -⟩ := C59_whole_partial C R env host t s hs
  obtain ⟨es, he⟩ : ∃ es, R.readString s = .broken es := by
    cases hr : R.readString s with
    | document doc =>
      rw [Reader.readString, cstr_noNul hs] at hr
      exact (hj ⟨doc, (R.accepts s doc).1 hr⟩).elim
    | broken es => exact ⟨es, rfl⟩
  refine ⟨fun target n v h => ?_, fun n v h => ?_, fun target next => ?_, fun next => ?_, ?_, ?_⟩
  · obtain ⟨doc, hd, -⟩ := h1 target n v h; exact hj ⟨doc, hd⟩
  · obtain ⟨doc, hd, -⟩ := h2 n v h; exact hj ⟨doc, hd⟩
  · rw [deserText, he]
  · rw [deserTextThrow, he]
  · rw [stringToDocument, he]
  · rw [stringToDocumentMove, he]

theorem empty_not_json (C : NumConv) : ¬ JsonText C [] := by
  rintro ⟨j, w1, t, w2, -, h, -, he⟩
  obtain ⟨c, r, rfl, -⟩ := h.first
  simp at he

example (C : NumConv) (R : Reader C) (target : Val) : deserText R Demo.env (.cls 5) [] target 0 = some (false, target) :=
  (C59_malformed_rejected C R Demo.env host (.cls 5) [] (by simp) (empty_not_json C)).2.2.1 target 0

/-! ## C60 -/

/-- **C60 (partial).** The document of `string_to_document(const std::string&)` is independent of its argument; all of it can be read
afterwards.

Missing: the overload for `std::string&&`, for which the claim is false (`C60_move_dangles`). -/
theorem C60_copy_owned_partial (C : NumConv) (R : Reader C) (s : Str) (d : Dom) (h : stringToDocument R s = some d) (live : Bool) :
    ∃ doc, d.view live = some doc ∧ Denotes C doc (cstr s) := by
  rw [stringToDocument] at h
  cases hr : R.readString s with
  | broken es => rw [hr] at h; cases h
  | document doc =>
    rw [hr] at h
    cases h
    exact ⟨doc, view_ok _ _ (.inl rfl) doc, (R.accepts _ _).1 hr⟩

/-- **C60, negation in general.** The document of `string_to_document(std::string&&)` can be read while the argument exists; after
that it can be read iff there are no strings and no members in it. -/
theorem C60_move_readable_iff (C : NumConv) (R : Reader C) (s : Str) (doc : Json) (h : Denotes C doc s) :
    ∃ d, stringToDocumentMove R s = some d ∧ d.view true = some doc ∧ d.view false = (if textFree doc then some doc else none) := by
  refine ⟨Dom.of .argument doc, ?_, view_ok _ _ (.inr rfl) doc, view_gone doc⟩
  rw [stringToDocumentMove, readString_of R h]

/-- **C60, negation.** `string_to_document(std::string("[\"a\"]"))`: the document refers to memory that is gone. -/
theorem C60_move_dangles (C : NumConv) (R : Reader C) : ∃ d, stringToDocumentMove R (lit "[\"a\"]") = some d ∧
    d.view true = some (.arr [.str [97]]) ∧ d.view false = none := by
  obtain ⟨d, h1, h2, h3⟩ := C60_move_readable_iff C R (lit "[\"a\"]") (.arr [.str [97]])
    ((C63_document_text C (.arr [.str [97]]) (by decide) (by simp [doubles, doublesAll]) _).2 rfl)
  exact ⟨d, h1, h2, h3⟩

example (C : NumConv) (R : Reader C) : ∃ d, stringToDocument R (lit "[\"a\"]") = some d := by
  have h : Denotes C (.arr [.str [97]]) (lit "[\"a\"]") := (C63_document_text C (.arr [.str [97]]) (by decide) (by simp [doubles, doublesAll]) _).2 rfl
  exact ⟨_, by rw [stringToDocument, readString_of R h]⟩

example (C : NumConv) (R : Reader C) : ∃ d, stringToDocumentMove R [49] = some d ∧ d.view false = some (.num (.int 1)) := by
  obtain ⟨d, h1, -, h3⟩ := C60_move_readable_iff C R [49] _ (one_denotes C)
  exact ⟨d, h1, h3⟩

end Verif.Props
