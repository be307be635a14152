import Verif.ParseAppend
import Verif.Props.ParseMore
import Verif.Props.Read

/-!
# C119: parsing one document after another

`bool parse(const std::string&, T&)` goes on from what the variable contains. So two documents that are parsed one
after another into the same variable have the effect of one document with the parts of both: elements are appended
to vectors and added to sets, entries of maps and members of classes are read into what is there.
-/

namespace Verif.Props
open Verif Verif.Core Verif.Demo

/-- First the one outcome; when it is acceptance, the other one, from the value that was left. -/
def inTurn (first : ParseBool) (second : Val → ParseBool) : ParseBool :=
  match first with
  | .accepted v => second v
  | .rejected => .rejected
  | .threw => .threw
  | .ub => .ub

/-- **C119, vectors.** `n` and `n'` are what the allocator returns next. -/
theorem C119_vector (env : Env) (host : Host) (t : Ty) (js : List Json) (target : Val) (n : Nat) : ∃ n', ∀ js',
    parseBool env host (.vec t) (.document (.arr (js ++ js'))) target n =
      inTurn (parseBool env host (.vec t) (.document (.arr js)) target n) fun v => parseBool env host (.vec t) (.document (.arr js')) v n' := by
  simp only [parseBool_document, openP, pval, arrayFn, pitems_append, loopVec_andThen]
  by_cases h1 : room host [] (.parser (.vec t)) = true
  · by_cases h2 : room host [] (.vecItems t) = true
    · simp only [h1, h2, if_true]
      cases loopVec env host [.vecItems t] t (pitems env host js) target.elements n with
      | ok us m => exact ⟨m, fun js' => rfl⟩
      | fail => exact ⟨0, fun js' => rfl⟩
      | threw => exact ⟨0, fun js' => rfl⟩
      | ub => exact ⟨0, fun js' => rfl⟩
    · simp only [h1, if_true, if_neg h2]; exact ⟨0, fun js' => rfl⟩
  · simp only [if_neg h1]; exact ⟨0, fun js' => rfl⟩

example : parseBool Demo.env host (.vec tInt) (.document (.arr [num 3, num 1])) (.seq [.prim (.int 2)]) 0 = .accepted (.seq [.prim (.int 2), .prim (.int 3), .prim (.int 1)]) ∧
    ∃ n', parseBool Demo.env host (.vec tInt) (.document (.arr [num 3, num 1, num 5])) (.seq [.prim (.int 2)]) 0 =
      parseBool Demo.env host (.vec tInt) (.document (.arr [num 5])) (.seq [.prim (.int 2), .prim (.int 3), .prim (.int 1)]) n' := by
  refine ⟨rfl, ?_⟩
  obtain ⟨n', h⟩ := C119_vector Demo.env host tInt [num 3, num 1] (.seq [.prim (.int 2)]) 0
  exact ⟨n', h [num 5]⟩

/-- **C119, elements are appended.** What was in a vector stays in front, and as many elements are added as the document has. -/
theorem C119_appended (env : Env) (host : Host) (t : Ty) (js : List Json) (vs : List Val) (n : Nat) (w : Val)
    (h : parseBool env host (.vec t) (.document (.arr js)) (.seq vs) n = .accepted w) : ∃ ws, w = .seq (vs ++ ws) ∧ ws.length = js.length := by
  obtain ⟨u, m, h1, h2⟩ := accepted_arr h
  rcases array_iff.1 h1 with ⟨t', vs', us, h3, h4, h5, h6⟩ | ⟨_, _, _, h3, -⟩ | ⟨_, _, _, _, h3, -⟩
  · simp only [openP, Handler.vecStart.injEq, Val.elements] at h3
    obtain ⟨rfl, rfl⟩ := h3
    obtain ⟨ws, h7, h8⟩ := loopVec_prefix h5
    refine ⟨ws, ?_, by rw [h8, pitems_eq, List.length_map]⟩
    rw [← h2, ← h6, h7]
    rfl
  · simp [openP] at h3
  · simp [openP] at h3

example (w : Val) (h : parseBool Demo.env host (.vec (.vec tInt)) (.document (.arr [.arr [num 3], .arr []])) (.seq [.seq []]) 0 = .accepted w) :
    ∃ ws, w = .seq ([.seq []] ++ ws) ∧ ws.length = 2 := C119_appended Demo.env host (.vec tInt) _ _ 0 w h

/-- **C119, sets.** -/
theorem C119_set (env : Env) (host : Host) (t : Ty) (js : List Json) (target : Val) (n : Nat) : ∃ n', ∀ js',
    parseBool env host (.set t) (.document (.arr (js ++ js'))) target n =
      inTurn (parseBool env host (.set t) (.document (.arr js)) target n) fun v => parseBool env host (.set t) (.document (.arr js')) v n' := by
  simp only [parseBool_document, openP, pval, arrayFn, pitems_append, loopSet_andThen _ _ _ _ _ _ [] _ (.inr rfl)]
  by_cases h1 : room host [] (.parser (.set t)) = true
  · by_cases h2 : room host [] (.setItems t) = true
    · simp only [h1, h2, if_true]
      cases loopSet env host [.setItems t] t (pitems env host js) [] target.elements n with
      | ok us m => exact ⟨m, fun js' => rfl⟩
      | fail => exact ⟨0, fun js' => rfl⟩
      | threw => exact ⟨0, fun js' => rfl⟩
      | ub => exact ⟨0, fun js' => rfl⟩
    · simp only [h1, if_true, if_neg h2]; exact ⟨0, fun js' => rfl⟩
  · simp only [if_neg h1]; exact ⟨0, fun js' => rfl⟩

example : ∃ n', parseBool Demo.env host (.set tInt) (.document (.arr [num 3, num 1, num 2, num 3])) (.set []) 0 =
      parseBool Demo.env host (.set tInt) (.document (.arr [num 2, num 3])) (.set [.prim (.int 1), .prim (.int 3)]) n' := by
  obtain ⟨n', h⟩ := C119_set Demo.env host tInt [num 3, num 1] (.set []) 0
  exact ⟨n', h [num 2, num 3]⟩

/-- **C119, maps.** Values of keys that are there already are read into the value that is there. -/
theorem C119_map (env : Env) (host : Host) (o : Bool) (t : Ty) (ms : List (Str × Json)) (target : Val) (n : Nat) : ∃ n', ∀ ms',
    parseBool env host (.map o t) (.document (.obj (ms ++ ms'))) target n =
      inTurn (parseBool env host (.map o t) (.document (.obj ms)) target n) fun v => parseBool env host (.map o t) (.document (.obj ms')) v n' := by
  simp only [parseBool_document, openP, pval, objectFn, pfields_append, loopMap_andThen]
  by_cases h1 : room host [] (.parser (.map o t)) = true
  · by_cases h2 : room host [] (.mapItems (.map o t)) = true
    · simp only [h1, h2, if_true]
      cases loopMap env host [.mapItems (.map o t)] t (pfields env host ms) target.entries n with
      | ok us m => exact ⟨m, fun js' => rfl⟩
      | fail => exact ⟨0, fun js' => rfl⟩
      | threw => exact ⟨0, fun js' => rfl⟩
      | ub => exact ⟨0, fun js' => rfl⟩
    · simp only [h1, if_true, if_neg h2]; exact ⟨0, fun js' => rfl⟩
  · simp only [if_neg h1]; exact ⟨0, fun js' => rfl⟩

/-- `{"k": [1]}`, then `{"k": [2]}`: the vectors are put together, as for the repeated key in `{"k": [1], "k": [2]}`. -/
example : parseBool Demo.env host (.map true (.vec tInt)) (.document (.obj [(lit "k", .arr [num 1]), (lit "k", .arr [num 2])])) (.map []) 0 =
      .accepted (.map [(lit "k", .seq [.prim (.int 1), .prim (.int 2)])]) ∧
    ∃ n', parseBool Demo.env host (.map true (.vec tInt)) (.document (.obj [(lit "k", .arr [num 1]), (lit "k", .arr [num 2])])) (.map []) 0 =
      parseBool Demo.env host (.map true (.vec tInt)) (.document (.obj [(lit "k", .arr [num 2])])) (.map [(lit "k", .seq [.prim (.int 1)])]) n' := by
  refine ⟨rfl, ?_⟩
  obtain ⟨n', h⟩ := C119_map Demo.env host true (.vec tInt) [(lit "k", .arr [num 1])] (.map []) 0
  exact ⟨n', h [(lit "k", .arr [num 2])]⟩

/-- **C119, classes.** The second document is laid over what the first one left. -/
theorem C119_class (env : Env) (host : Host) (c : Nat) (ms : List (Str × Json)) (target : Val) (n : Nat) : ∃ n', ∀ ms',
    parseBool env host (.cls c) (.document (.obj (ms ++ ms'))) target n =
      inTurn (parseBool env host (.cls c) (.document (.obj ms)) target n) fun v => parseBool env host (.cls c) (.document (.obj ms')) v n' := by
  simp only [parseBool_document, openP, pval]
  by_cases h1 : room host [] (.parser (.cls c)) = true
  · by_cases h3 : env.members c = []
    · simp only [h1, h3, if_true, objectFn]; exact ⟨0, fun js' => rfl⟩
    · by_cases h2 : room host [] (.object c) = true
      · simp only [h1, h2, if_true, if_neg h3, objectFn, pfields_append, loopObj_andThen]
        cases hr : loopObj env host [.object c] c (pfields env host ms) (fitMembers env (env.members c) target.members) n with
        | ok us m =>
          refine ⟨m, fun js' => ?_⟩
          have hl : (env.members c).length = us.length := by rw [loopObj_len hr, fitMembers_length]
          simp only [LRes.andThen, LRes.whole, inTurn, id, Val.members, fitMembers_id env _ us hl]
        | fail => exact ⟨0, fun js' => rfl⟩
        | threw => exact ⟨0, fun js' => rfl⟩
        | ub => exact ⟨0, fun js' => rfl⟩
      · simp only [h1, if_true, if_neg h2, if_neg h3, objectFn]; exact ⟨0, fun js' => rfl⟩
  · simp only [if_neg h1]; exact ⟨0, fun js' => rfl⟩

/-- `{"id": 7}`, then `{"note": "x"}` -/
example : ∃ n' v, parseBool plainEnv host (.cls 1) (.document (.obj [(lit "id", num 7)])) (.obj [.prim .null, .absent, .prim (.int 4)]) 0 = .accepted v ∧
    parseBool plainEnv host (.cls 1) (.document (.obj [(lit "id", num 7), (lit "note", .str (lit "x"))])) (.obj [.prim .null, .absent, .prim (.int 4)]) 0 =
      parseBool plainEnv host (.cls 1) (.document (.obj [(lit "note", .str (lit "x"))])) v n' := by
  have h0 : parseBool plainEnv host (.cls 1) (.document (.obj [(lit "id", num 7)])) (.obj [.prim .null, .absent, .prim (.int 4)]) 0 =
      .accepted (.obj [.prim (.int 7), .absent, .prim (.int 4)]) := by
    rw [C42_document_partial plainEnv host streamed plain_streamable plain_built 100 host_roomy (.cls 1) (.inr (.inl rfl)) _ (by decide +kernel) (by decide +kernel)]
    rfl
  obtain ⟨n', h⟩ := C119_class plainEnv host 1 [(lit "id", num 7)] (.obj [.prim .null, .absent, .prim (.int 4)]) 0
  refine ⟨n', _, h0, ?_⟩
  have := h [(lit "note", .str (lit "x"))]
  rw [h0] at this
  exact this

/-- **C119 is false of the DOM reader**: it clears containers, so `[1]`, then `[2]`, is not `[1, 2]`. -/
theorem C119_dom (n : Nat) : ∃ v w w', deserializeBool Demo.env (.vec tInt) (.arr [num 1]) (.seq []) n = some (true, v) ∧
    deserializeBool Demo.env (.vec tInt) (.arr [num 2]) v n = some (true, w) ∧ deserializeBool Demo.env (.vec tInt) (.arr [num 1, num 2]) (.seq []) n = some (true, w') ∧
    w ≠ w' := ⟨_, _, _, rfl, rfl, rfl, by intro h; cases h⟩

end Verif.Props
