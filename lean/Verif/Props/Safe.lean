import Verif.Safe
import Verif.ParseSafe
import Verif.Props.DateTime
import Verif.Props.ReadShared
import Verif.Props.ParseMore

/-!
# C68: reading has no undefined behaviour

The readers get documents from outside of the program, so nothing may be assumed about them.
-/

namespace Verif.Props
open Verif.Core Verif.Numeric Verif.EnumConv Verif.Demo

/-! ## The clock -/

/-- A clock with a resolution of 100 ns or more does not overflow. -/
theorem calm_coarse (env : Env) (hclk : env.clk ≤ 10000000) : ∀ j, Calm env j := by
  have hstr : ∀ s, CalmStr env s := by
    intro s
    obtain ⟨h1, h2⟩ := C10_no_overflow_partial env.clk hclk s
    refine ⟨h1, ?_⟩
    unfold DateTime.readDate
    cases h : DateTime.parseDate env.clk s with
    | ok t => simp
    | rejected => simp
    | overflow => exact absurd h h2
  intro j
  induction j using Json.induct with
  | scalar j h1 h2 =>
    cases j with
    | str s => exact hstr s
    | arr js => exact absurd rfl (h1 js)
    | obj ms => exact absurd rfl (h2 ms)
    | _ => trivial
  | arr js ih => exact (CalmAll_iff env js).2 ih
  | obj ms ih => exact (CalmFields_iff env ms).2 ih

/-! ## C68: streaming parser -/

/-- **C68 (partial), streaming parser.** For every type and every text, `parse` has no undefined behaviour, whatever the target
holds, if the hash tables are built and no string makes the clock overflow.

Missing: strings that make the clock overflow (`C68_clock`). -/
theorem C68_parser_partial (env : Env) (host : Host) (hb : TablesBuilt env host) (t : Ty) (j : Json) (hc : Calm env j) (feed : Feed)
    (hf : Feed.From j feed) (target : Val) (n : Nat) : parseBool env host t feed target n ≠ .ub ∧ parseThrow env host t feed n ≠ .ub := by
  have key : ∀ target, parseBool env host t feed target n ≠ .ub := by
    intro target
    have he : ∃ more, feed.events ++ more = events j := by
      cases feed with
      | document j' => cases hf; exact ⟨[], List.append_nil _⟩
      | broken es => exact hf
    obtain ⟨more, he⟩ := he
    have h1 := prun_safe env host (selects_of_build env host hb) feed.events (start env t target n)
      (fun e h => events_calm env j hc e (by rw [← he]; simp [h])) (start_inhabited env t target n)
    have h2 := (C43_handler_present env host t j target n feed.events more he).1
    unfold parseBool
    split
    · generalize prun env host (start env t target n) feed.events = r at h1 h2 ⊢
      cases r with
      | go s => cases feed <;> simp
      | ub => exact absurd rfl h1
      | noHandler => exact absurd rfl h2
      | fail => simp
      | threw => simp
    · simp
  refine ⟨key target, ?_⟩
  have := key (env.fresh t)
  unfold parseThrow
  generalize parseBool env host t feed (env.fresh t) n = r at this ⊢
  cases r <;> simp_all

example (target : Val) (n : Nat) : parseBool Demo.env host (.cls 5) (.document treeDoc) target n ≠ .ub :=
  (C68_parser_partial Demo.env host tables_built (.cls 5) treeDoc (by simp [treeDoc, Calm, CalmFields, CalmAll]) (.document treeDoc) rfl target n).1

/-- **C68, streaming parser.** With a clock of 100 ns or coarser there is no exception. -/
theorem C68_parser_coarse_clock (env : Env) (hclk : env.clk ≤ 10000000) (host : Host) (hb : TablesBuilt env host) (t : Ty) (j : Json) (feed : Feed)
    (hf : Feed.From j feed) (target : Val) (n : Nat) : parseBool env host t feed target n ≠ .ub ∧ parseThrow env host t feed n ≠ .ub :=
  C68_parser_partial env host hb t j (calm_coarse env hclk j) feed hf target n

example (target : Val) (n : Nat) : parseBool { Demo.env with clk := 1 } host (.prim .time) (.document (.str (lit "9999-12-31T23:59:59Z"))) target n ≠ .ub :=
  (C68_parser_coarse_clock { Demo.env with clk := 1 } (by decide) host tables_built (.prim .time) _ (.document _) rfl target n).1

/-! ## C68: DOM reader -/

/-- **C68 (partial), DOM reader.** For every type and every document, `deserialize` has no undefined behaviour if all references
of the document are JSON pointers and do not refer to an object of another type, and no string makes the clock
overflow.

Missing: other references (`C68_type_confusion`, `C68_reference_not_string`, `C68_reference_no_pointer`), overflow of the clock
(`C68_clock`). -/
theorem C68_dom_partial (env : Env) (t : Ty) (root : Json) (hs : SoundRefs env t root) (hc : Calm env root) (target : Val) (next : Nat) :
    deserializeBool env t root target next ≠ none ∧ deserializeThrow env t root next ≠ .ub := by
  have h0 : TableOf env t root ⟨[], next⟩ := fun q a t' v h => by cases h
  have key := deser_sound env t root hs root t hc [] .root
  constructor
  · have h := key false target [] ⟨[], next⟩ h0
    unfold deserializeBool
    generalize deser env root root false t target [] [] ⟨[], next⟩ = r at h ⊢
    cases r with
    | ub => cases h
    | threw s e => cases h
    | done ok v st => simp
  · have h := key true (env.fresh t) [] ⟨[], next⟩ h0
    unfold deserializeThrow
    generalize deser env root root true t (env.fresh t) [] [] ⟨[], next⟩ = r at h ⊢
    cases r with
    | ub => cases h
    | threw s e => simp
    | done ok v st => simp

/-- `{"left": {"id": 7, "count": 2}, "right": {"$ref": "/left"}}` -/
def bothDoc : Json := .obj [(lit "left", .obj [(lit "id", .num (.int 7)), (lit "count", .num (.int 2))]), (lit "right", .obj [(lit "$ref", .str (lit "/left"))])]

/-- All shared objects that can be reached in the type are of the same type. -/
def OnePointee (env : Env) (T : Ty) (root : Json) (p : Ty) : Prop := ∀ t j loc, NodeAt env T root (.sptr t) j loc → t = p

/-- **C68 (partial), DOM reader.** If all shared pointers of a type point to the same type, then only references that are not
JSON pointers are undefined behaviour. -/
theorem C68_one_pointee_partial (env : Env) (t p : Ty) (root : Json) (ho : OnePointee env t root p)
    (hr : ∀ j loc r, NodeAt env t root (.sptr p) j loc → refMember j = some r → ∃ s toks, r = .str s ∧ pointerTokens env s = some toks)
    (hc : Calm env root) (target : Val) (next : Nat) : deserializeBool env t root target next ≠ none ∧ deserializeThrow env t root next ≠ .ub := by
  refine C68_dom_partial env t root (fun t' j loc r hn hm => ?_) hc target next
  obtain rfl := ho t' j loc hn
  obtain ⟨s, toks, h1, h2⟩ := hr j loc r hn hm
  exact ⟨s, toks, h1, h2, fun q t'' j' _ hn' _ => ho t'' j' _ hn'⟩

theorem bothDoc_nodes {t : Ty} {j : Json} {loc : Loc} (h : NodeAt Demo.env (.cls 2) bothDoc t j loc) :
    (t = .cls 2 ∧ j = bothDoc) ∨ (t = .sptr (.cls 1) ∧ (refMember j = none ∨ refMember j = some (.str (lit "/left")))) ∨ t = .cls 1 ∨ ∃ p, t = .prim p := by
  induction h with
  | root => exact .inl ⟨rfl, rfl⟩
  | child t j loc t' j' loc' _ hch ih =>
    rcases ih with ⟨rfl, rfl⟩ | ⟨rfl, -⟩ | rfl | ⟨p, rfl⟩
    · cases hch with
      | cls _ _ m i _ _ hm hf =>
        have hm' : m = ⟨lit "left", .required, .sptr (.cls 1)⟩ ∨ m = ⟨lit "right", .required, .sptr (.cls 1)⟩ := by
          simpa [Env.members, Demo.env, both] using hm
        have hj := findMember_mem hf
        simp only [List.mem_cons, List.not_mem_nil, or_false, Prod.mk.injEq] at hj
        rcases hm' with rfl | rfl <;> rcases hj with ⟨hk, rfl⟩ | ⟨hk, rfl⟩
        · exact .inr (.inl ⟨rfl, .inl rfl⟩)
        · exact absurd hk (by decide)
        · exact absurd hk (by decide)
        · exact .inr (.inl ⟨rfl, .inr rfl⟩)
    · cases hch with
      | sptr => exact .inr (.inr (.inl rfl))
    · cases hch with
      | cls _ _ m i _ _ hm hf =>
        have hm' : m = ⟨lit "id", .required, tInt⟩ ∨ m = ⟨lit "note", .optional, tStr⟩ ∨ m = ⟨lit "count", .default, tInt⟩ := by
          simpa [Env.members, Demo.env, item] using hm
        rcases hm' with rfl | rfl | rfl <;> exact .inr (.inr (.inr ⟨_, rfl⟩))
    · cases hch

example (target : Val) (next : Nat) : deserializeBool Demo.env (.cls 2) bothDoc target next ≠ none ∧ deserializeThrow Demo.env (.cls 2) bothDoc next ≠ .ub := by
  refine C68_one_pointee_partial Demo.env (.cls 2) (.cls 1) bothDoc (fun t j loc h => ?_) (fun j loc r h hr => ?_) ?_ target next
  · rcases bothDoc_nodes h with ⟨h, -⟩ | ⟨h, -⟩ | h | ⟨p, h⟩ <;> cases h
    rfl
  · rcases bothDoc_nodes h with ⟨h, -⟩ | ⟨-, h | h⟩ | h | ⟨p, h⟩
    · cases h
    · rw [h] at hr; cases hr
    · rw [h] at hr; cases hr; exact ⟨_, _, rfl, rfl⟩
    · cases h
    · cases h
  · simp only [bothDoc, Calm, CalmFields, CalmStr, and_true, true_and]
    decide +kernel

example (target : Val) (next : Nat) : deserializeBool Demo.env (.cls 2) bothDoc target next ≠ none := by
  refine (C68_dom_partial Demo.env (.cls 2) bothDoc (fun t j loc r h hr => ?_) ?_ target next).1
  · rcases bothDoc_nodes h with ⟨h, -⟩ | ⟨h, h' | h'⟩ | h | ⟨p, h⟩
    · cases h
    · rw [h'] at hr; cases hr
    · rw [h'] at hr
      cases hr
      cases h
      refine ⟨_, _, rfl, rfl, fun q t' j' _ hn _ => ?_⟩
      rcases bothDoc_nodes hn with ⟨h, -⟩ | ⟨h, -⟩ | h | ⟨p, h⟩ <;> cases h
      rfl
    · cases h
    · cases h
  · simp only [bothDoc, Calm, CalmFields, CalmStr, and_true, true_and]
    decide +kernel

/-- **C68 (partial), DOM reader.** Documents without a member `"$ref"` are safe for all types. -/
theorem C68_no_references_partial (env : Env) (t : Ty) (root : Json) (hn : root.noRef) (hc : Calm env root) (target : Val) (next : Nat) :
    deserializeBool env t root target next ≠ none ∧ deserializeThrow env t root next ≠ .ub := by
  refine C68_dom_partial env t root (fun t' j loc r h hr => ?_) hc target next
  rw [noRef_refMember (h.noRef hn)] at hr
  cases hr

example (target : Val) (next : Nat) : deserializeBool Demo.env (.cls 2) badBoth target next ≠ none :=
  (C68_no_references_partial Demo.env (.cls 2) badBoth badBoth_noRef badBoth_calm target next).1

/-- **C68 is false for references to objects of another type.** For any two different types, a document with an
object of the first and a reference to it as an object of the second makes the reader use the one as the other
(`std::reinterpret_pointer_cast`). -/
theorem C68_type_confusion (env : Env) (hu : env.Unshared) (t t' : Ty) (ht : t.unshared = true) (hne : t ≠ t') (j : Json) (hn : refMember j = none)
    (hc : Calm env j) (hj : ¬ Fails env t j) (target : Val) (next : Nat) :
    deserializeBool env (.tuple [.sptr t, .sptr t']) (.arr [j, .obj [(lit "$ref", .str (lit "/0"))]]) target next = none ∧
    deserializeThrow env (.tuple [.sptr t, .sptr t']) (.arr [j, .obj [(lit "$ref", .str (lit "/0"))]]) next = .ub := by
  have key : ∀ exc target, deser env (.arr [j, .obj [(lit "$ref", .str (lit "/0"))]]) (.arr [j, .obj [(lit "$ref", .str (lit "/0"))]]) exc
      (.tuple [.sptr t, .sptr t']) target [] [] ⟨[], next⟩ = .ub := by
    intro exc target
    obtain ⟨v, hv⟩ := accepts env hu j t ht hc hj exc (env.ctor t) [.index 0]
    rw [deser_tuple]
    simp only [List.length_cons, List.length_nil, if_true, List.map_cons, List.map_nil, runTuple, deser_sptr, hn]
    rw [free env hu j t ht, hv]
    simp only [PRes.lift, DState.put, List.lookup]
    have hr : refMember (.obj [(lit "$ref", .str (lit "/0"))]) = some (.str (lit "/0")) := rfl
    have hp : pointerTokens env (lit "/0") = some [lit "0"] := rfl
    have hg : pointerGet (.arr [j, .obj [(lit "$ref", .str (lit "/0"))]]) [lit "0"] = some [0] := rfl
    simp only [hr, readRef, hp, hg, DState.get, List.reverse_cons, List.reverse_nil, List.nil_append, List.lookup]
    simp [hne, DRes.map]
  exact ⟨by rw [deserializeBool, key], by rw [deserializeThrow, key]⟩

example (target : Val) (next : Nat) : deserializeBool plainEnv (.tuple [.sptr tInt, .sptr tStr])
    (.arr [.num (.int 7), .obj [(lit "$ref", .str (lit "/0"))]]) target next = none :=
  (C68_type_confusion plainEnv plainEnv_unshared tInt tStr rfl (by simp [tInt, tStr]) (.num (.int 7)) rfl trivial
    (fun h => by cases h with | prim _ _ h => exact h _ (.int _ 7 (by decide)) | array _ _ h => simp [Ty.wantsArray] at h | object _ _ h => simp [Ty.wantsObject] at h) target next).1

/-- Member names: `"p/q"` of type `std::shared_ptr<int>`; `"p"`, an object with the member `"q"` of type `std::shared_ptr<std::string>`;
`"r"` of type `std::shared_ptr<int>`. -/
def slashEnv : Env := { Demo.env with classes := fun n => match n with
  | 0 => ⟨lit "Outer", [⟨lit "p/q", .required, .sptr tInt⟩, ⟨lit "p", .required, .cls 1⟩, ⟨lit "r", .required, .sptr tInt⟩]⟩
  | 1 => ⟨lit "Inner", [⟨lit "q", .required, .sptr tStr⟩]⟩
  | _ => ⟨lit "Empty", []⟩ }

/-- **C68 is false for what the library itself has written**: the path of a shared integer below the key `"p/q"` is that of a
shared string (see C47), so that reading back the document uses the string as an integer. -/
theorem C68_written_confused (target : Val) (next : Nat) :
    ∃ v doc, HasTy slashEnv (fun a => match a with | 1 => some (tInt, .prim (.int 5)) | 2 => some (tStr, .prim (.str (lit "s"))) | _ => none) v (.cls 0) ∧
      serializeToDocument slashEnv (.cls 0) v = some (some doc) ∧ deserializeBool slashEnv (.cls 0) doc target next = none ∧
      deserializeThrow slashEnv (.cls 0) doc next = .ub := by
  refine ⟨.obj [.sptr 1 (.prim (.int 5)), .obj [.sptr 2 (.prim (.str (lit "s")))], .sptr 1 (.prim (.int 5))], _, ?_, rfl, rfl, rfl⟩
  simp only [HasTy, Env.members, slashEnv, MembersTy, PrimTy]
  exact ⟨⟨trivial, by decide⟩, ⟨⟨trivial, trivial⟩, trivial⟩, ⟨trivial, by decide⟩, trivial⟩

/-- **C68 is false for references that are no strings.** -/
theorem C68_reference_not_string (env : Env) (t : Ty) (r : Json) (hr : ∀ s, r ≠ .str s) (target : Val) (next : Nat) :
    deserializeBool env (.sptr t) (.obj [(lit "$ref", r)]) target next = none ∧
    deserializeThrow env (.sptr t) (.obj [(lit "$ref", r)]) next = .ub := by
  have key : ∀ exc target, deser env (.obj [(lit "$ref", r)]) (.obj [(lit "$ref", r)]) exc (.sptr t) target [] [] ⟨[], next⟩ = .ub := by
    intro exc target
    rw [deser_sptr]
    have h : refMember (.obj [(lit "$ref", r)]) = some r := rfl
    rw [h]
    cases r with
    | str s => exact absurd rfl (hr s)
    | _ => rfl
  exact ⟨by rw [deserializeBool, key], by rw [deserializeThrow, key]⟩

example (target : Val) : deserializeBool Demo.env (.sptr (.cls 1)) (.obj [(lit "$ref", .num (.int 5))]) target 0 = none :=
  (C68_reference_not_string Demo.env (.cls 1) (.num (.int 5)) (by simp) target 0).1

/-- **C68 is false for references that are no JSON pointers.** -/
theorem C68_reference_no_pointer (env : Env) (t : Ty) (s : Str) (hs : pointerTokens env s = none) (target : Val) (next : Nat) :
    deserializeBool env (.sptr t) (.obj [(lit "$ref", .str s)]) target next = none ∧
    deserializeThrow env (.sptr t) (.obj [(lit "$ref", .str s)]) next = .ub := by
  have key : ∀ exc target, deser env (.obj [(lit "$ref", .str s)]) (.obj [(lit "$ref", .str s)]) exc (.sptr t) target [] [] ⟨[], next⟩ = .ub := by
    intro exc target
    rw [deser_sptr]
    have h : refMember (.obj [(lit "$ref", .str s)]) = some (.str s) := rfl
    rw [h]
    simp only [readRef, hs]
  exact ⟨by rw [deserializeBool, key], by rw [deserializeThrow, key]⟩

example (target : Val) : deserializeBool Demo.env (.sptr (.cls 1)) (.obj [(lit "$ref", .str (lit "left"))]) target 0 = none :=
  (C68_reference_no_pointer Demo.env (.cls 1) (lit "left") (by decide +kernel) target 0).1

/-- **C68 is false for time stamps that the clock cannot represent**: both readers compute a signed overflow. -/
theorem C68_clock (env : Env) (s : Str) (h : DateTime.parseDatetime env.clk s = .overflow) (host : Host) (hroom : Roomy host 1) (target : Val) (next : Nat) :
    deserializeBool env (.prim .time) (.str s) target next = none ∧ deserializeThrow env (.prim .time) (.str s) next = .ub ∧
    parseBool env host (.prim .time) (.document (.str s)) target next = .ub := by
  have hd : desPrim env .time (.str s) = .ub := by simp only [desPrim, h]
  refine ⟨by rw [deserializeBool, deser_prim, hd], by rw [deserializeThrow, deser_prim, hd], ?_⟩
  have hr : room host [] (.parser (.prim .time)) = true := hroom [] _ (by simp)
  simp only [parseBool, if_pos hr, start, openP, Feed.events, events, prun, pstep, openStep, leafParse, h]

/-- A clock that counts nanoseconds, as that of libstdc++. -/
example (host : Host) (hroom : Roomy host 1) (target : Val) :
    parseBool { Demo.env with clk := 1000000000 } host (.prim .time) (.document (.str (lit "2262-04-11T23:47:17Z"))) target 0 = .ub :=
  (C68_clock { Demo.env with clk := 1000000000 } _ C10_overflow_nanoseconds.1 host hroom target 0).2.2

end Verif.Props
