import Verif.ParseError
import Verif.Props.Parse

/-!
# C64: the text of `JsonParseError`
-/

namespace Verif.Props
open Verif.Core Verif.Numeric Verif.EnumConv Verif.Demo

/-- The classes of the demonstration program that a parser is generated for. -/
theorem demo_compiles : CompilesClasses env streamed := by
  intro c hc
  have h := streamable_classes c hc
  refine ⟨h.1, ?_⟩
  rcases hc with rfl | rfl | rfl
  · intro m hm
    simp only [Env.members, env, point, List.mem_cons, List.not_mem_nil, or_false] at hm
    rcases hm with rfl | rfl <;> trivial
  · intro m hm
    simp only [Env.members, env, item, List.mem_cons, List.not_mem_nil, or_false] at hm
    rcases hm with rfl | rfl | rfl <;> trivial
  · intro m hm
    simp only [Env.members, env, tree, List.mem_cons, List.not_mem_nil, or_false] at hm
    rcases hm with rfl | rfl
    · trivial
    · exact .inr (.inr rfl)

/-- C64: a `JsonParseError` of `T parse(const std::string&)` names the offset and a reason that is not empty: the
message that the handler left for the first event it refused, or the text of RapidJSON if no event was refused and
the text is no JSON. -/
theorem C64_message (env : Env) (host : Host) (G : Nat → Prop) (hG : CompilesClasses env G) (t : Ty) (ht : Compiles G t)
    (feed : Feed) (n offset : Nat) (syntaxText : Str) (hx : syntaxText ≠ []) (h : parseThrow env host t feed n = .parseError) :
    ∃ why, why ≠ [] ∧
      parseWhat env host t feed n offset syntaxText = some (lit "parse error at offset " ++ decimal offset ++ lit ": " ++ why) ∧
      ((∃ before e rest s, feed.events = before ++ e :: rest ∧ prun env host (start env t (env.fresh t) n) before = .go s ∧
          pstep env host s e = .fail ∧ reason env host s e = some why) ∨
        (∃ es s, feed = .broken es ∧ prun env host (start env t (env.fresh t) n) es = .go s ∧ why = syntaxText)) := by
  have hs := start_compiles hG ht (env.fresh t) n
  have hb : parseBool env host t feed (env.fresh t) n = .rejected := by
    unfold parseThrow at h
    split at h <;> first | assumption | cases h
  unfold parseBool at hb
  split at hb
  · split at hb
    · rename_i s hgo
      cases feed with
      | document j => cases hb
      | broken es =>
          have he := errorAfter_go hG es _ s [] hs hgo
          refine ⟨syntaxText, hx, ?_, Or.inr ⟨es, s, rfl, hgo, rfl⟩⟩
          simp only [parseWhat, h, Feed.events, he, parseErrorText]
          rfl
    · rename_i hf
      obtain ⟨before, e, rest, s, why, h1, h2, h3, h4, h5, h6⟩ := errorAfter_fail hG feed.events _ [] hs hf
      refine ⟨why, h5, ?_, Or.inl ⟨before, e, rest, s, h1, h2, h3, h4⟩⟩
      simp only [parseWhat, h, h6, if_pos h5, parseErrorText]
    all_goals cases hb
  · cases hb

/-- The point `{"x": 1, "y": "two"}`: the second member is refused, after four events that are accepted. -/
example : parseWhat env host (.cls 0) (.document (.obj [(lit "x", .num (.int 1)), (lit "y", .str (lit "two"))])) 0 18 (lit "Terminate") =
    some (lit "parse error at offset 18: expected JSON token: number; got: string") := by decide +kernel

/-- `{"x": 1, "z": 2}`: a key that is not a member name. -/
example : parseWhat env host (.cls 0) (.document (.obj [(lit "x", .num (.int 1)), (lit "z", .num (.int 2))])) 0 12 (lit "Terminate") =
    some (lit "parse error at offset 12: expected class member name; got: z") := by decide +kernel

/-- `{"x": 1,`: the text ends. -/
example : parseWhat env host (.cls 0) (.broken [.startObj, .key (lit "x"), .num (.int 1)]) 0 8 (lit "Missing a name for object member.") =
    some (lit "parse error at offset 8: Missing a name for object member.") := by decide +kernel

example : CompilesClasses env streamed ∧ Compiles streamed (.cls 4) := ⟨demo_compiles, .inr (.inr rfl)⟩

/-- C64: as long as no event is refused no message is left, so that a syntax error is reported as such. -/
theorem C64_silent (env : Env) (host : Host) (G : Nat → Prop) (hG : CompilesClasses env G) (t : Ty) (ht : Compiles G t)
    (es : List Event) (target : Val) (n : Nat) (s : PState) (h : prun env host (start env t target n) es = .go s) :
    errorAfter env host (start env t target n) es [] = [] :=
  errorAfter_go hG es _ s [] (start_compiles hG ht target n) h

example : ∃ s, prun env host (start env (.cls 0) (env.fresh (.cls 0)) 0) [.startObj, .key (lit "x"), .num (.int 1)] = .go s :=
  ⟨_, rfl⟩

/-- How a token is called in a message (specification). -/
def called : Token → Str
  | .null => lit "null" | .bool => lit "boolean" | .num => lit "number" | .str => lit "string" | .key => lit "key name"
  | .startObj => lit "'{'" | .endObj => lit "'}'" | .startArr => lit "'['" | .endArr => lit "']'"

/-- The message about an unexpected token (specification). -/
def unexpectedText (expected : List Token) (found : Token) : Str :=
  lit "expected JSON token: " ++ List.intercalate (lit " or ") (expected.map called) ++ lit "; got: " ++ called found

theorem tokenFail_text (expected : List Token) (found : Token) : tokenFail expected found = unexpectedText expected found := by
  have hname : ∀ t : Token, t.name = called t := by intro t; cases t <;> rfl
  have hor : ∀ (t : Token) (ts : List Token), t.name ++ orNames ts = List.intercalate (lit " or ") ((t :: ts).map called) := by
    intro t ts
    induction ts generalizing t with
    | nil => simp [orNames, hname, List.intercalate]
    | cons u us ih =>
      rw [orNames, List.append_assoc, ih u, hname]
      simp [List.intercalate]
  unfold tokenFail unexpectedText
  rw [hname]
  cases expected with
  | nil => rfl
  | cons t ts => simp only [hor]

/-- C64: an event whose token is none of those that the handler expects is refused (unless the handler stack of a
tuple overflows first), and the message lists the tokens that are expected and names the one that was found. -/
theorem C64_unexpected_token (env : Env) (host : Host) (G : Nat → Prop) (hG : CompilesClasses env G) (f : Frame) (rest : List Frame)
    (fin : Option Val) (n : Nat) (e : Event) (hs : PState.compiles G ⟨f :: rest, fin, n⟩) (h : e.token ∉ f.handler.expected) :
    (pstep env host ⟨f :: rest, fin, n⟩ e = .fail ∨ pstep env host ⟨f :: rest, fin, n⟩ e = .threw) ∧
      reason env host ⟨f :: rest, fin, n⟩ e = some (unexpectedText f.handler.expected e.token) :=
  tokenFail_text f.handler.expected e.token ▸ step_unexpected hG f rest fin n e hs h

/-- A key is expected in the object of a point, or its end; a number comes. -/
example : reason env host ⟨[⟨.object 0, .objItems 0 [.prim (.flt .nan), .prim (.flt .nan)], .root, id⟩], none, 0⟩ (.num (.int 1)) =
    some (lit "expected JSON token: key name or '}'; got: number") := by decide +kernel

example : PState.compiles streamed ⟨[⟨.object 0, .objItems 0 [], .root, id⟩], none, 0⟩ := by
  intro f hf
  simp only [List.mem_singleton] at hf
  subst hf
  exact .inl rfl

/-- C64: each token that a message names as expected is accepted in some event, if the handler is not one for the
elements of a vector or set of characters, enumerations without names, or pointers to numbers. Missing: these
handlers, which name numbers as expected and refuse all of them, see `C64_contradictory_message`. -/
theorem C64_expected_accepted_partial (env : Env) (host : Host) (G : Nat → Prop) (hG : CompilesClasses env G) (htab : TablesBuilt env host)
    (f : Frame) (rest : List Frame) (fin : Option Val) (n : Nat) (hc : f.handler.compiles G) (ht : f.handler.truthful = true)
    (x : Token) (hx : x ∈ f.handler.expected) : ∃ e : Event, e.token = x ∧ pstep env host ⟨f :: rest, fin, n⟩ e ≠ .fail :=
  step_accepts hG (selects_of_build env host htab) f rest fin n hc ht x hx

example : (Handler.vecItems tInt []).truthful = true ∧ (Handler.vecItems tInt []).expected = [.num, .endArr] ∧
    (Handler.vecItems (.cls 4) []).truthful = true ∧ (Handler.vecItems (.prim (.int ⟨.w8, true⟩)) []).truthful = false := by decide

/-- C64: an event with one of the expected tokens is accepted, or the message is about its content and not about the
token; same exception, and enumerations without names, which say `expected JSON token: number; got: number` for a
number with a fraction. -/
theorem C64_content_message_partial (env : Env) (host : Host) (G : Nat → Prop) (hG : CompilesClasses env G) (f : Frame) (rest : List Frame)
    (fin : Option Val) (n : Nat) (e : Event) (hc : f.handler.compiles G) (ht : f.handler.consistent = true)
    (h : e.token ∈ f.handler.expected) (m : Str) (hm : reason env host ⟨f :: rest, fin, n⟩ e = some m) (expected : List Token)
    (found : Token) : m ≠ tokenFail expected found :=
  step_notToken hG f rest fin n e hc ht h m hm expected found

/-- 300 as an element of a vector of `signed char` in a tuple. -/
example : reason env host ⟨[⟨.fixed (.tuple [.prim (.int ⟨.w8, true⟩)]) 0, .fixItems (.tuple [.prim (.int ⟨.w8, true⟩)])
      [.prim (.int ⟨.w8, true⟩)] 0 [.prim (.int 0)], .root, id⟩], none, 0⟩ (.num (.int 300)) =
    some (lit "number cannot be assigned without data loss") := by decide +kernel

/-- The leaf type of the value that comes next, behind pointers (specification). -/
def leafOf : Ty → Option Prim
  | .prim p => some p
  | .uptr t => leafOf t
  | .sptr t => leafOf t
  | _ => none

/-- The leaf type of the value that a handler takes next. -/
def nextLeaf : Handler → Option Prim
  | .leaf p _ => some p
  | .vecItems t _ | .setItems t _ _ => leafOf t
  | .fixItems _ ts i _ => (match ts[i]? with | none => none | some t => leafOf t)
  | _ => none

/-- The message about the content of a value or key (specification): what is wrong, and the text in question. -/
inductive ContentText : Option Prim → Event → Str → Prop
  | int (t : IntTy) (x : JsonNum) : ContentText (some (.int t)) (.num x) (lit "number cannot be assigned without data loss")
  | flt (t : FltTy) (x : JsonNum) : ContentText (some (.flt t)) (.num x) (lit "number cannot be assigned without data loss")
  | bytes (s : Str) : ContentText (some .bytes) (.str s) (lit "invalid Base64-encoding for sequence of bytes")
  | time (s : Str) : ContentText (some .time) (.str s) (lit "invalid ISO-8601 date-time; expected: YYYY-MM-DDTHH:MM:SSZ, got: " ++ s)
  | date (s : Str) : ContentText (some .date) (.str s) (lit "invalid ISO-8601 date; expected: YYYY-MM-DD, got: " ++ s)
  | enum (table : Table) (s : Str) : ContentText (some (.enumStr table)) (.str s) (lit "expected an enumeration string value; got: " ++ s)
  | member (k : Str) : ContentText none (.key k) (lit "expected class member name; got: " ++ k)

theorem leaf_content (env : Env) (expected : List Token) (p : Prim) (e : Event) (h : e.token = p.token)
    (hp : ∀ t, p ≠ .enumInt t) : ∀ m, leafReason env expected p e = some m → ContentText (some p) e m := by
  intro m hm
  cases p with
  | null => cases e <;> cases h; cases hm
  | bool => cases e <;> cases h; cases hm
  | str => cases e <;> cases h; cases hm
  | int t =>
      cases e <;> cases h
      simp only [leafReason, numReason] at hm
      split at hm <;> cases hm
      exact .int _ _
  | flt t =>
      cases e <;> cases h
      simp only [leafReason, numReason] at hm
      split at hm <;> cases hm
      exact .flt _ _
  | enumInt t => exact absurd rfl (hp t)
  | bytes =>
      cases e <;> cases h
      simp only [leafReason] at hm
      split at hm <;> cases hm
      exact .bytes _
  | time =>
      cases e <;> cases h
      simp only [leafReason] at hm
      split at hm <;> cases hm
      exact .time _
  | date =>
      cases e <;> cases h
      simp only [leafReason] at hm
      split at hm <;> cases hm
      exact .date _
  | enumStr table =>
      cases e <;> cases h
      simp only [leafReason] at hm
      split at hm <;> cases hm
      exact .enum _ _

theorem open_content {env : Env} {G : Nat → Prop} (hG : CompilesClasses env G) (e : Event) :
    ∀ (t : Ty) (v : Val) (n : Nat), Compiles G t → t.enumNum = false → e.token = t.token →
      ∀ m, openReason env (openP env t v n).1 e = some m → ContentText (leafOf t) e m
  | .prim p, _, _, _, hn, h, m, hm => leaf_content env _ p e h (by rintro t rfl; cases hn) m hm
  | .vec t, _, _, _, _, h, m, hm => by cases e <;> cases h; cases hm
  | .arr k t, _, _, _, _, h, m, hm => by cases e <;> cases h; cases hm
  | .set t, _, _, _, _, h, m, hm => by cases e <;> cases h; cases hm
  | .map o t, _, _, _, _, h, m, hm => by cases e <;> cases h; cases hm
  | .dict t, _, _, _, _, h, m, hm => by cases e <;> cases h; cases hm
  | .tuple ts, _, _, _, _, h, m, hm => by cases e <;> cases h; cases hm
  | .variant ts, _, _, hc, _, _, _, _ => by simp [Compiles] at hc
  | .cls c, _, _, hc, _, h, m, hm => by
      have hg : G c := by simpa [Compiles] using hc
      simp only [openP, (hG c hg).1, if_false] at hm
      cases e <;> cases h; cases hm
  | .uptr t, _, n, hc, hn, h, m, hm => open_content hG e t _ n (by simpa [Compiles] using hc) hn h m hm
  | .sptr t, _, n, hc, hn, h, m, hm => open_content hG e t _ (n + 1) (by simpa [Compiles] using hc) hn h m hm

theorem item_content {env : Env} {G : Nat → Prop} (hG : CompilesClasses env G) (t : Ty) (n : Nat) (e : Event) (hc : Compiles G t)
    (he : t.element = true) (h : e.token ∈ [t.token, .endArr]) : ∀ m, itemReason env t n e = some m → ContentText (leafOf t) e m := by
  intro m hm
  unfold itemReason at hm
  split at hm
  · cases hm
  · rename_i hne
    have h1 : e.token = t.token := by
      simp only [List.mem_cons, List.not_mem_nil, or_false] at h
      rcases h with h | h
      · exact h
      · cases e <;> first | exact absurd rfl hne | cases h
    split at hm
    · rename_i p hp
      have hpt := direct_prim hp
      subst hpt
      refine leaf_content env _ p e h1 ?_ m hm
      rintro u rfl
      cases hp
    · rename_i hd
      have hn : t.numeric = false := by simpa [Ty.element, hd] using he
      rw [if_pos (isToken_of_token hc hn h1)] at hm
      exact open_content hG e t _ n hc (enumNum_numeric hn) h1 m hm

/-- C64: what the message says if the token is one of those expected, but not its content; exceptions as above. -/
theorem C64_content_text_partial (env : Env) (host : Host) (G : Nat → Prop) (hG : CompilesClasses env G) (f : Frame) (rest : List Frame)
    (fin : Option Val) (n : Nat) (e : Event) (hc : f.handler.compiles G) (ht : f.handler.consistent = true)
    (h : e.token ∈ f.handler.expected) (m : Str) (hm : reason env host ⟨f :: rest, fin, n⟩ e = some m) :
    ContentText (nextLeaf f.handler) e m := by
  obtain ⟨c, hd, l, w⟩ := f
  cases hd with
  | leaf p v =>
      refine leaf_content env _ p e (by simpa [Handler.expected] using h) ?_ m hm
      rintro t rfl
      cases ht
  | vecStart t vs => have h' : e.token = .startArr := by simpa [Handler.expected] using h
                     cases e <;> cases h'; cases hm
  | setStart t vs => have h' : e.token = .startArr := by simpa [Handler.expected] using h
                     cases e <;> cases h'; cases hm
  | fixStart C t vs => have h' : e.token = .startArr := by simpa [Handler.expected] using h
                       cases e <;> cases h'; cases hm
  | mapStart C t vs => have h' : e.token = .startObj := by simpa [Handler.expected] using h
                       cases e <;> cases h'; cases hm
  | objStart C vs => have h' : e.token = .startObj := by simpa [Handler.expected] using h
                     cases e <;> cases h'; cases hm
  | vecItems t vs => exact item_content hG t n e hc ht h m hm
  | setItems t st vs => exact item_content hG t n e hc ht h m hm
  | fixItems C ts i vs =>
      simp only [Handler.consistent, Handler.expected] at ht h
      simp only [reason] at hm
      simp only [nextLeaf]
      cases hi : ts[i]? with
      | none =>
          rw [hi] at h hm
          have h' : e.token = .endArr := by simpa using h
          cases e <;> cases h'; cases hm
      | some t =>
          rw [hi] at h ht hm
          have h' : e.token = t.token := by simpa using h
          simp only [startsValue_of_token h', if_true] at hm
          exact open_content hG e t _ n (CompilesAll_get hc hi) (by simpa using ht) h' m hm
  | mapItems C t kvs => cases e <;> first | (cases hm; done) | (simp [Handler.expected, Event.token] at h)
  | objItems C vs =>
      cases e <;> first | (cases hm; done) | (simp [Handler.expected, Event.token] at h; done) | skip
      simp only [reason] at hm
      split at hm
      · injection hm with hm
        subst hm
        exact .member _
      · cases hm
  | unsupported v => exact hc.elim

/-- A date with a wrong month as element of a vector. -/
example : reason env host ⟨[⟨.vecItems (.prim .date), .vecItems (.prim .date) [], .root, id⟩], none, 0⟩ (.str (lit "2024-13-01")) =
    some (lit "invalid ISO-8601 date; expected: YYYY-MM-DD, got: 2024-13-01") := by decide +kernel

/-- C64 (refutation): the message contradicts itself. `parse<std::vector<char>>("[1]")` reports that a number was
expected and a number was found; so does an enumeration without names for `1.5`. -/
theorem C64_contradictory_message :
    parseWhat env host (.vec (.prim (.int ⟨.w8, true⟩))) (.document (.arr [.num (.int 1)])) 0 2 (lit "Terminate") =
      some (lit "parse error at offset 2: expected JSON token: number or ']'; got: number") ∧
    parseWhat env host (.prim (.enumInt int32)) (.document (.num (.dbl (.fin false 3 (-1))))) 0 3 (lit "Terminate") =
      some (lit "parse error at offset 3: expected JSON token: number; got: number") := by decide +kernel

/-- C64 (refutation, in general): for elements that are numbers without a handler of their own for the whole container
(characters, enumerations without names, pointers to numbers) a number is named as expected, yet every number is
refused with that message. -/
theorem C64_expected_never_accepted (env : Env) (host : Host) (t : Ty) (hn : t.numeric = true) (hd : direct t = none)
    (c : HClass) (l : Link) (w : Val → Val) (vs : List Val) (rest : List Frame) (fin : Option Val) (n : Nat) (x : JsonNum) :
    Token.num ∈ (Handler.vecItems t vs).expected ∧ pstep env host ⟨⟨c, .vecItems t vs, l, w⟩ :: rest, fin, n⟩ (.num x) = .fail ∧
      reason env host ⟨⟨c, .vecItems t vs, l, w⟩ :: rest, fin, n⟩ (.num x) = some (tokenFail [.num, .endArr] .num) := by
  have h1 : ∀ {t : Ty}, t.numeric = true → t.token = .num ∧ isToken t (.num x) = false := by
    intro t
    induction t using Ty.rec (motive_2 := fun _ => True) with
    | prim p => intro h; cases p <;> first | exact ⟨rfl, rfl⟩ | cases h
    | uptr t ih => exact ih
    | sptr t ih => exact ih
    | nil => trivial
    | cons => trivial
    | _ => intro h; cases h
  obtain ⟨h2, h3⟩ := h1 hn
  simp only [Handler.expected, pstep, reason, itemReason, hd, h2, h3, Event.token]
  simp

example : Ty.numeric (.sptr (.prim (.int int32))) = true ∧ direct (.sptr (.prim (.int int32))) = none := ⟨rfl, rfl⟩

end Verif.Props
