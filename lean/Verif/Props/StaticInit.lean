import Verif.StaticInit
import Verif.Props.Order

/-!
# C102: documents that are parsed before `main`
-/

namespace Verif.Props
open Verif.Core Verif.Numeric Verif.EnumConv Verif.Text

/-- None of the tables has been built. -/
def nothing : Nat → Bool := fun _ => false

/-- While the table of a class with three or more members has not been built, its parser takes the name of the first member for what it is
and refuses every other key, whether or not it is the name of a member; no array is accessed outside its bounds. -/
theorem C102_key (env : Env) (host : Host) (ready : Nat → Bool) (c : Nat) (k : Str) (first : Member) (rest : List Member)
    (hm : env.members c = first :: rest) (h2 : 2 ≤ rest.length) (hr : ready c = false) :
    (k = first.name → selectMember env (host.early env ready) c k = .member 0) ∧
    (k ≠ first.name → selectMember env (host.early env ready) c k = .reject) := by
  have h := select_zero env host ready c k (by rw [hm, List.length_cons]; omega) hr
  rw [hm] at h
  simp only [List.head?_cons, Option.map_some, Option.some.injEq] at h
  exact ⟨fun hk => by rw [h, if_pos hk.symm], fun hk => by rw [h, if_neg (fun h => hk h.symm)]⟩

example : selectMember Demo.env (Demo.host.early Demo.env nothing) 1 (lit "id") = .member 0 ∧
    selectMember Demo.env (Demo.host.early Demo.env nothing) 1 (lit "note") = .reject :=
  ⟨(C102_key Demo.env Demo.host nothing 1 _ _ _ rfl (by decide) rfl).1 rfl, (C102_key Demo.env Demo.host nothing 1 _ _ _ rfl (by decide) rfl).2 (by decide)⟩

/-- At every moment of the initialisation `parse` has the outcome that it has in `main`, or refuses the document; this holds for every text,
whether it is a document or not. In particular nothing is undefined that is defined in `main`, and no wrong value is returned. -/
theorem C102_never_wrong (env : Env) (host : Host) (hb : TablesBuilt env host) (ready : Nat → Bool) (t : Ty) (feed : Feed) (target : Val) (n : Nat) :
    parseBool env (host.early env ready) t feed target n = parseBool env host t feed target n ∨
    parseBool env (host.early env ready) t feed target n = .rejected :=
  parse_early env host (selects_of_build env host hb) ready t feed target n

example (feed : Feed) : parseBool Demo.env (Demo.host.early Demo.env nothing) (.vec (.cls 1)) feed (.seq []) 0 =
      parseBool Demo.env Demo.host (.vec (.cls 1)) feed (.seq []) 0 ∨
    parseBool Demo.env (Demo.host.early Demo.env nothing) (.vec (.cls 1)) feed (.seq []) 0 = .rejected :=
  C102_never_wrong _ _ Demo.tables_built _ _ _ _ _

/-- Which documents are accepted: those that are accepted in `main` and in which every key of an object that is read as a class with three or
more members whose table has not been built is the name of the first member of the class. -/
theorem C102_accepted_iff (env : Env) (host : Host) (hb : TablesBuilt env host) (ready : Nat → Bool) (t : Ty) (j : Json) (target : Val) (n : Nat) (v : Val) :
    parseBool env (host.early env ready) t (.document j) target n = .accepted v ↔
    parseBool env host t (.document j) target n = .accepted v ∧
      ∀ c k, KeyAt env t j c k → (env.members c).length < 3 ∨ ready c = true ∨ (env.members c).head?.map (·.name) = some k :=
  accepted_early env host (selects_of_build env host hb) ready t j target n v

/-- A document with one member of an item. -/
def idOnly : Json := .obj [(lit "id", .num (.int 7))]

/-- An item as it is before `parse`. -/
def blankItem : Val := .obj [.prim (.int 0), .absent, .prim (.int 5)]

/-- Keys of an object without inner objects. -/
theorem idOnly_keys (c : Nat) (k : Str) (h : KeyAt Demo.env (.cls 1) idOnly c k) : c = 1 ∧ k = lit "id" := by
  cases h with
  | here _ ms p h1 h2 =>
    rw [List.mem_singleton] at h2
    subst h2
    exact ⟨rfl, rfl⟩
  | member _ ms p i m _ _ h1 h2 h3 h4 =>
    rw [List.mem_singleton] at h1
    subst h1
    have hi : memberAt (Demo.env.members 1) (lit "id") = some 0 := by decide
    rw [hi] at h2
    cases h2
    cases h3
    cases h4

example : parseBool Demo.env (Demo.host.early Demo.env nothing) (.cls 1) (.document idOnly) blankItem 0 =
    .accepted (.obj [.prim (.int 7), .absent, .prim (.int 5)]) := by
  rw [C102_accepted_iff _ _ Demo.tables_built]
  refine ⟨by with_unfolding_all rfl, fun c k hk => ?_⟩
  obtain ⟨rfl, rfl⟩ := idOnly_keys c k hk
  exact .inr (.inr rfl)

/-- An object of a class with three or more members that has a key other than the name of the first member is refused while the table of
the class has not been built, although it is accepted in `main`; wherever in the document the object is. -/
theorem C102_refused (env : Env) (host : Host) (hb : TablesBuilt env host) (ready : Nat → Bool) (t : Ty) (j : Json) (target : Val) (n : Nat) (v : Val)
    (hacc : parseBool env host t (.document j) target n = .accepted v) (c : Nat) (k : Str) (hk : KeyAt env t j c k)
    (h3 : 3 ≤ (env.members c).length) (hr : ready c = false) (hf : (env.members c).head?.map (·.name) ≠ some k) :
    parseBool env (host.early env ready) t (.document j) target n = .rejected := by
  rcases C102_never_wrong env host hb ready t (.document j) target n with h | h
  · rw [hacc] at h
    rcases ((C102_accepted_iff env host hb ready t j target n v).1 h).2 c k hk with h1 | h1 | h1
    · omega
    · rw [hr] at h1; cases h1
    · exact absurd h1 hf
  · exact h

/-- An item in a list: accepted in `main`, refused before. -/
example : parseBool Demo.env Demo.host (.vec (.cls 1)) (.document (.arr [itemDoc])) (.seq []) 0 =
      .accepted (.seq [.obj [.prim (.int 7), .present (.prim (.str (lit "ok"))), .prim (.int 2)]]) ∧
    parseBool Demo.env (Demo.host.early Demo.env nothing) (.vec (.cls 1)) (.document (.arr [itemDoc])) (.seq []) 0 = .rejected := by
  have h : parseBool Demo.env Demo.host (.vec (.cls 1)) (.document (.arr [itemDoc])) (.seq []) 0 =
      .accepted (.seq [.obj [.prim (.int 7), .present (.prim (.str (lit "ok"))), .prim (.int 2)]]) := by with_unfolding_all rfl
  exact ⟨h, C102_refused _ _ Demo.tables_built nothing _ _ _ _ _ h 1 (lit "note")
    (.vec _ _ itemDoc _ _ (by simp) (.here 1 _ (lit "note", .str (lit "ok")) (by decide) (by simp))) (by decide) rfl (by decide)⟩

/-- The claim that `parse` does the same before `main` as in `main` is false. -/
theorem C102_violated : ¬∀ (env : Env) (host : Host), TablesBuilt env host → ∀ (ready : Nat → Bool) (t : Ty) (j : Json) (target : Val) (n : Nat) (v : Val),
    parseBool env host t (.document j) target n = .accepted v → parseBool env (host.early env ready) t (.document j) target n = .accepted v := by
  intro h
  have h1 : parseBool Demo.env Demo.host (.cls 1) (.document itemDoc) blankItem 0 =
      .accepted (.obj [.prim (.int 7), .present (.prim (.str (lit "ok"))), .prim (.int 2)]) := by with_unfolding_all rfl
  have h2 := h _ _ Demo.tables_built nothing _ _ _ _ _ h1
  rw [C102_refused _ _ Demo.tables_built nothing _ _ _ _ _ h1 1 (lit "note") (.here 1 _ (lit "note", .str (lit "ok")) (by decide) (by simp))
    (by decide) rfl (by decide)] at h2
  cases h2

/-- If all classes with three or more members that occur in the document have their tables, `parse` does the same as in `main`. -/
theorem C102_same_partial (env : Env) (host : Host) (hb : TablesBuilt env host) (ready : Nat → Bool) (t : Ty) (j : Json) (target : Val) (n : Nat)
    (hr : ∀ c k, KeyAt env t j c k → 3 ≤ (env.members c).length → ready c = true) (v : Val) :
    parseBool env (host.early env ready) t (.document j) target n = .accepted v ↔ parseBool env host t (.document j) target n = .accepted v := by
  rw [C102_accepted_iff env host hb]
  refine ⟨fun h => h.1, fun h => ⟨h, fun c k hk => ?_⟩⟩
  by_cases h3 : (env.members c).length < 3
  · exact .inl h3
  · exact .inr (.inl (hr c k hk (by omega)))

example (v : Val) : parseBool Demo.env (Demo.host.early Demo.env fun c => c == 1) (.cls 1) (.document idOnly) blankItem 0 = .accepted v ↔
    parseBool Demo.env Demo.host (.cls 1) (.document idOnly) blankItem 0 = .accepted v :=
  C102_same_partial _ _ Demo.tables_built _ _ _ _ _ (fun c k hk _ => by rw [(idOnly_keys c k hk).1]; rfl) v

/-- The same for `T parse(const std::string&)`. -/
theorem C102_throw (env : Env) (host : Host) (hb : TablesBuilt env host) (ready : Nat → Bool) (t : Ty) (feed : Feed) (n : Nat) :
    parseThrow env (host.early env ready) t feed n = parseThrow env host t feed n ∨ parseThrow env (host.early env ready) t feed n = .parseError := by
  unfold parseThrow
  rcases C102_never_wrong env host hb ready t feed (env.fresh t) n with h | h
  · rw [h]; exact .inl rfl
  · rw [h]; exact .inr rfl

example : parseThrow Demo.env Demo.host (.cls 1) (.document itemDoc) 0 ≠ .parseError ∧
    parseThrow Demo.env (Demo.host.early Demo.env nothing) (.cls 1) (.document itemDoc) 0 = .parseError := by
  refine ⟨by with_unfolding_all nofun, ?_⟩
  have h1 : parseBool Demo.env Demo.host (.cls 1) (.document itemDoc) (Demo.env.fresh (.cls 1)) 0 =
      .accepted (.obj [.prim (.int 7), .present (.prim (.str (lit "ok"))), .prim (.int 2)]) := by with_unfolding_all rfl
  have h2 := C102_refused _ _ Demo.tables_built nothing _ _ _ _ _ h1 1 (lit "note") (.here 1 _ (lit "note", .str (lit "ok")) (by decide) (by simp))
    (by decide) rfl (by decide)
  unfold parseThrow
  rw [h2]

end Verif.Props
