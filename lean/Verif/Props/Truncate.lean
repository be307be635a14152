import Verif.Truncate
import Verif.Props.Text

/-!
# C120: incomplete files and files with something behind the document

A file that was not written to its end, or one to which a second document was appended, must not be taken for a
document. Only numbers are an exception: the beginning of a number may be a number.
-/

namespace Verif.Props
open Verif Verif.Core Verif.Numeric Verif.Text Verif.Demo

/-- No function that reads strings makes anything of `s`. -/
def Unreadable {C : NumConv} (R : Reader C) (s : Str) : Prop :=
  (∀ env host t target n v, parseText R env host t s target n ≠ .accepted v) ∧ (∀ env host t n v, parseTextThrow R env host t s n ≠ .returned v) ∧
  (∀ env t target next, deserText R env t s target next = some (false, target)) ∧ (∀ env t next, deserTextThrow R env t s next = .parseError) ∧
  stringToDocument R s = none ∧ stringToDocumentMove R s = none

theorem unreadable_of {C : NumConv} (R : Reader C) {s : Str} (h : ¬ JsonText C (cstr s)) : Unreadable R s := by
  obtain ⟨es, he⟩ : ∃ es, R.readString s = .broken es := by
    cases hr : R.readString s with
    | document doc => exact (h ⟨doc, (R.accepts _ doc).1 hr⟩).elim
    | broken es => exact ⟨es, rfl⟩
  have hb : ∀ env host t target n v, parseBool env host t (.broken es) target n ≠ .accepted v := by
    intro env host t target n v h
    rw [parseBool] at h
    split at h
    · split at h <;> cases h
    · cases h
  refine ⟨fun env host t target n v h => ?_, fun env host t n v h => ?_, fun env t target next => ?_, fun env t next => ?_, ?_, ?_⟩
  · rw [parseText, he] at h
    exact hb _ _ _ _ _ _ h
  · rw [parseTextThrow, he, parseThrow] at h
    split at h
    next h1 => exact hb _ _ _ _ _ _ h1
    all_goals cases h
  · rw [deserText, he]
  · rw [deserTextThrow, he]
  · rw [stringToDocument, he]
  · rw [stringToDocumentMove, he]

theorem not_num {doc : Json} (h : ∀ n, doc ≠ .num n) : jsonKind doc ≠ 3 := by
  cases doc with
  | num n => exact absurd rfl (h n)
  | bool b => cases b <;> decide
  | _ => simp [jsonKind]

/-- **C120, beginnings of a text.** A beginning of the text of a document that is not a number is a JSON text only if nothing but blanks is missing. -/
theorem C120_beginning (C : NumConv) (doc : Json) (hn : ∀ n, doc ≠ .num n) (s rest : Str) (h : Denotes C doc (s ++ rest)) (hs : JsonText C s) :
    Denotes C doc s ∧ Ws rest := by
  obtain ⟨j, hj⟩ := hs
  obtain ⟨rfl, hw⟩ := denotes_closed h hj rfl (not_num hn)
  exact ⟨hj, hw⟩

example (C : NumConv) (h : JsonText C (lit "[\"a\\\"\\u0000\",-")) : False := by
  have h0 := (C63_document_text C (.arr [.str [97, 34, 0], .num (.int (-7))]) (by decide) (by simp [doubles, doublesAll]) _).2 rfl
  have e : documentToString C (.arr [.str [97, 34, 0], .num (.int (-7))]) = lit "[\"a\\\"\\u0000\",-" ++ lit "7]" := by rfl
  rw [e] at h0
  have := (C120_beginning C _ (by simp) _ _ h0 h).2 55 (by decide)
  revert this
  decide

/-- **C120 (partial), incomplete files.** If the text of a document is not written to its end, nothing reads it, also not when the rest of the file is
filled with NUL characters (followed by anything).

Missing: numbers (`C120_number`). -/
theorem C120_incomplete_partial (C : NumConv) (R : Reader C) (doc : Json) (hn : ∀ n, doc ≠ .num n) (hp : doc.proper = true) (hC : ∀ f ∈ doubles doc, C.Faithful f)
    (s rest : Str) (hs : documentToString C doc = s ++ rest) (hr : rest ≠ []) (junk : Str) : Unreadable R s ∧ Unreadable R (s ++ 0 :: junk) := by
  have hd := den_render C doc hp hC
  rw [← documentToString_eq, hs] at hd
  have hno : ∀ c ∈ s, c ≠ 0 := fun c hc => hd.noNul c (by simp [hc])
  have hj : ¬ JsonText C s := by
    rintro ⟨j, w1, t, w2, h1, h2, h3, rfl⟩
    have e : ([] : Str) ++ ((w1 ++ (t ++ w2) ++ rest) ++ []) = w1 ++ (t ++ (w2 ++ rest)) := by simp
    obtain ⟨rfl, e1⟩ := split_unique e (by simp) h1 (hd.notWs _) (h2.notWs _)
    obtain ⟨-, -, e2⟩ := den_closed hd h2 e1 (not_num hn)
    exact hr (List.append_eq_nil_iff.1 e2.symm).2
  refine ⟨unreadable_of R (by rw [cstr_noNul hno]; exact hj), unreadable_of R ?_⟩
  rw [cstr_append, cstr_noNul hno]
  exact hj

example (C : NumConv) (R : Reader C) : Unreadable R (lit "{\"x\":[1,2") :=
  (C120_incomplete_partial C R (.obj [(lit "x", .arr [.num (.int 1), .num (.int 2)])]) (by simp) (by decide) (by simp [doubles, doublesAll, doublesFields])
    (lit "{\"x\":[1,2") (lit "]}") rfl (by decide) []).1

/-- **C120 (partial), of a value.** What `write_to_string` writes is not read unless all of it is there. -/
theorem C120_written_partial (C : NumConv) (R : Reader C) (env : Env) (hfair : env.Fair) (H : Heap) (v : Val) (t : Ty) (ht : HasTy env H v t) (hf : finite v = true)
    (doc : Json) (hdoc : serializeToDocument env t v = some (some doc)) (hn : ∀ n, doc ≠ .num n) (hC : ∀ f ∈ doubles doc, C.Faithful f) (before : Str) :
    ∃ text, writeText C env t v before = some (true, text) ∧ ∀ s rest, text = s ++ rest → rest ≠ [] → Unreadable R s := by
  obtain ⟨new, doc', tr, h1, h2, -⟩ := serOk env hfair H v t [] [] [] ht hf
  have hd : doc = doc' := by
    rw [serializeToDocument, h1] at hdoc
    simp only [Option.some.injEq] at hdoc
    exact hdoc.symm
  subst hd
  exact ⟨_, (written_denotes C env hfair H v t ht hf doc hdoc hC).1 before, fun s rest hs hr =>
    (C120_incomplete_partial C R doc hn (showsProper env H v t [] doc tr h2 ht) hC s rest hs hr []).1⟩

example (R : Reader demoConv) : Unreadable R (lit "{\"x\":3.0,\"y\":7.0") := by
  obtain ⟨text, h1, h2⟩ := C120_written_partial demoConv R Demo.env fair heap goodPoint (.cls 0) good_point (by decide +kernel)
    (.obj [(lit "x", .num (.dbl (.fin false 1 0))), (lit "y", .num (.dbl (.fin false 3 0)))]) rfl (by simp)
    (by intro f hf; exact demo_faithful f (by simpa [doubles, doublesFields] using hf)) []
  have h3 : writeText demoConv Demo.env (.cls 0) goodPoint [] = some (true, lit "{\"x\":3.0,\"y\":7.0" ++ lit "}") := by rfl
  rw [h3] at h1
  simp only [Option.some.injEq, Prod.mk.injEq, true_and] at h1
  exact h2 _ _ h1.symm (by decide)

/-- **C120, two documents in a file.** If a text is appended to the text of a document that is not a number, the whole is not read. -/
theorem C120_joined (C : NumConv) (R : Reader C) (doc : Json) (hn : ∀ n, doc ≠ .num n) (s s' : Str) (h : Denotes C doc s) (h' : JsonText C s') : Unreadable R (s ++ s') := by
  obtain ⟨j', hj'⟩ := h'
  have hno : ∀ c ∈ s ++ s', c ≠ 0 := fun c hc => (List.mem_append.1 hc).elim (h.noNul c) (hj'.noNul c)
  refine unreadable_of R ?_
  rw [cstr_noNul hno]
  rintro ⟨j, hj⟩
  have hk : jsonKind j ≠ 3 := by
    obtain ⟨w1, t, w2, h1, h2, h3, e⟩ := hj
    obtain ⟨w1', t', w2', h1', h2', h3', rfl⟩ := h
    simp only [List.append_assoc] at e
    obtain ⟨-, e1⟩ := split_unique e h1' h1 (h2'.notWs _) (h2.notWs _)
    rw [← den_kind h2' h2 e1]
    exact not_num hn
  obtain ⟨-, hw⟩ := denotes_closed hj h rfl hk
  obtain ⟨w1, t, w2, -, h2, -, rfl⟩ := hj'
  obtain ⟨c, r, rfl, -⟩ := h2.first
  have := h2.notWs [] c (r ++ []) rfl
  rw [hw c (by simp)] at this
  cases this

example (C : NumConv) (R : Reader C) : Unreadable R (lit "[1]" ++ lit "1") :=
  C120_joined C R (.arr [.num (.int 1)]) (by simp) _ _ ((C63_document_text C (.arr [.num (.int 1)]) (by decide) (by simp [doubles, doublesAll]) _).2 rfl) ⟨_, one_denotes C⟩

/-- **C120 is false for numbers**: of `12`, what was written first is read as 1, and `1` followed by `2` as 12. -/
theorem C120_number (C : NumConv) (R : Reader C) (env : Env) (target : Val) (n : Nat) :
    documentToString C (.num (.int 12)) = lit "1" ++ lit "2" ∧ deserText R env tInt (lit "1") target n = some (true, .prim (.int 1)) ∧
    JsonText C (lit "1") ∧ JsonText C (lit "2") ∧ deserText R env tInt (lit "1" ++ lit "2") target n = some (true, .prim (.int 12)) := by
  have h1 := (C63_document_text C (.num (.int 1)) (by decide) (by simp [doubles]) _).2 rfl
  have h2 := (C63_document_text C (.num (.int 2)) (by decide) (by simp [doubles]) _).2 rfl
  have h12 := (C63_document_text C (.num (.int 12)) (by decide) (by simp [doubles]) _).2 rfl
  refine ⟨rfl, ?_, ⟨_, h1⟩, ⟨_, h2⟩, ?_⟩
  · rw [deserText, show R.readString (lit "1") = _ from readString_of R h1]; rfl
  · rw [deserText, show R.readString (lit "1" ++ lit "2") = _ from readString_of R h12]; rfl

end Verif.Props
