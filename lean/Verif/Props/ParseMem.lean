import Verif.ParseMemLemmas
import Verif.Props.Parse
import Verif.DispatchLemmas

/-!
# C91: the handlers of the parser refer only to living objects
-/

namespace Verif.Props
open Verif.Core Verif.Demo Verif.Numeric

/-- A run that goes on keeps a stack of objects that belongs to the memory. -/
theorem mirrored {env : Env} (hd : env.Dictless) {host : Host} {t : Ty} (ht : t.dictless = true) {target : Val} {n : Nat} {es : List Event}
    {c : MState} (h : mparse env host t target n es = .go c) : ∃ s, MirrorsState env c s := by
  have := parse_ok hd host t ht target n es
  rw [h] at this
  split at this
  · cases hp : prun env host (start env t target n) es with
    | go s => rw [hp] at this; exact ⟨s, this⟩
    | _ => rw [hp] at this; exact this.elim
  · exact this.elim

/-- **C91.** For every type without vectors of pairs, every state of the variable and every sequence of events, no
handler reads or writes through a reference that is no longer valid: elements are added to a vector, inserted into a
set or a map, optional members and pointers set, and storage of sets released only when no handler refers to
anything that this moves or destroys. -/
theorem C91_no_dangling (env : Env) (hd : env.Dictless) (host : Host) (t : Ty) (ht : t.dictless = true) (target : Val) (n : Nat)
    (es : List Event) : mparse env host t target n es ≠ .dangling := by
  intro h
  have := parse_ok hd host t ht target n es
  rw [h] at this
  split at this
  · cases hp : prun env host (start env t target n) es <;> rw [hp] at this <;> exact this
  · exact this

/-- **C91.** At every moment, every handler on the stack has a valid reference, and it leads to an object. -/
theorem C91_references (env : Env) (hd : env.Dictless) (host : Host) (t : Ty) (ht : t.dictless = true) (target : Val) (n : Nat)
    (es : List Event) (c : MState) (h : mparse env host t target n es = .go c) :
    ∀ g ∈ c.stack, g.live = true ∧ ∃ v, load c.roots g.ref = some v := by
  obtain ⟨s, hs⟩ := mirrored hd ht h
  intro g hg
  have := mirrors_loads hs g hg
  exact ⟨this.1, Option.isSome_iff_exists.1 this.2⟩

/-- **C91.** At every moment, the object that a handler refers to is part of the variable, or of the storage of a
handler further down in the stack, which is destroyed later. There is no other storage. -/
theorem C91_lifetimes (env : Env) (hd : env.Dictless) (host : Host) (t : Ty) (ht : t.dictless = true) (target : Val) (n : Nat)
    (es : List Event) (c : MState) (h : mparse env host t target n es = .go c) :
    (∀ above g below, c.stack = above ++ g :: below → g.ref.root = 0 ∨ ∃ p ∈ below, ∃ t, p.shell = .setItems t g.ref.root) ∧
      c.roots.length = 1 + (c.stack.filter fun g => match g.shell with | .setItems _ _ => true | _ => false).length := by
  obtain ⟨s, hs⟩ := mirrored hd ht h
  exact ⟨tracks_roots hs.2.1, mirrors_storages hs⟩

/-- **C91.** The variable is filled in place as if every handler made its object and passed it on when complete: the
outcome is the one of C42-C45, including what is in the variable. -/
theorem C91_in_place (env : Env) (hd : env.Dictless) (host : Host) (t : Ty) (ht : t.dictless = true) (target : Val) (n : Nat) (feed : Feed) :
    mparseBool env host t feed target n = parseBool env host t feed target n := by
  have := parse_ok hd host t ht target n feed.events
  unfold mparseBool parseBool
  split at this
  · rename_i hroom
    rw [if_pos hroom]
    cases hm : mparse env host t target n feed.events <;> cases hp : prun env host (start env t target n) feed.events <;>
      rw [hm, hp] at this <;> first
      | exact this.elim
      | rfl
      | skip
    have ht := mirrors_target this
    cases feed with
    | broken => rfl
    | document j =>
      simp only [List.headD_eq_head?_getD, ht]
      rfl
  · rename_i hroom
    rw [if_neg hroom]
    cases hm : mparse env host t target n feed.events <;> rw [hm] at this <;> first
      | exact this.elim

/-- **C91.** Also when the events end early (a syntax error), the variable holds what the handlers have made so far. -/
theorem C91_variable (env : Env) (hd : env.Dictless) (host : Host) (t : Ty) (ht : t.dictless = true) (target : Val) (n : Nat)
    (es : List Event) (hroom : room host [] (.parser t) = true) (s : PState) (h : prun env host (start env t target n) es = .go s) :
    ∃ c, mparse env host t target n es = .go c ∧ c.roots.head? = some s.target ∧ c.stack.length = s.stack.length := by
  have := parse_ok hd host t ht target n es
  rw [if_pos hroom, h] at this
  cases hm : mparse env host t target n es <;> rw [hm] at this <;> first
    | exact this.elim
    | skip
  rename_i c
  refine ⟨c, rfl, mirrors_target this, ?_⟩
  have := congrArg List.length (tracks_cls this.2.1)
  simpa using this

/-- **C91.** The handlers write nothing to the variable when constructed: its value has all components of its type. -/
theorem C91_unwritten (env : Env) (H : Heap) (t : Ty) (v : Val) (h : HasTy env H v t) : shaped env t v = v :=
  shaped_of_hasTy env H t v h

open Verif.Dispatch in
/-- The parser has nothing of its own for vectors of pairs (there is no such specialisation in parse_map.hpp): they are vectors of tuples. -/
theorem resolve_dictless (inc : Header → Bool) (t : CTy) : ∀ T, resolve .parse inc t = some T → T.dictless = true := by
  refine (resolve.mutual_induct .parse inc (fun t => ∀ T, resolve .parse inc t = some T → T.dictless = true)
    (fun ts => ∀ Ts, resolveAll .parse inc ts = some Ts → Ty.dictlesses Ts = true)
    ?_ ?_ ?_ ?_ ?_ ?_ ?_ ?_ ?_ ?_ ?_ ?_ ?_ ?_ ?_ ?_ ?_ ?_ ?_ ?_ ?_ ?_ ?_ ?_ ?_ ?_ ?_ ?_ ?_ ?_ ?_ ?_ ?_ ?_ ?_ ?_ ?_).1 t
  case refine_17 | refine_19 =>
    intro t h
    exact absurd h (by simp [offers, home])
  case refine_15 =>
    intro hb T h
    rw [resolve, if_pos hb] at h
    cases h
    rfl
  case refine_16 | refine_18 | refine_20 =>
    intros
    rename_i hb ih T h
    rw [resolve, if_neg hb] at h
    obtain ⟨-, T1, h1, rfl⟩ := pick_map h
    exact ih T1 h1
  case refine_21 =>
    intro t n1 n2 n3 ih T h
    rw [resolve_vec _ _ _ n1 n2 n3] at h
    obtain ⟨-, T1, h1, rfl⟩ := pick_map h
    exact ih T1 h1
  case refine_26 =>
    intro s t ih1 ih2 T h
    obtain ⟨S, T1, h1, h2, rfl⟩ := pick_pair h
    simp [Ty.dictless, Ty.dictlesses, ih1 _ h1, ih2 _ h2]
  case refine_36 =>
    intro Ts h
    cases h
    rfl
  case refine_37 =>
    intro t ts ih1 ih2 Ts h
    obtain ⟨T, Us, h1, h2, rfl⟩ := cons_some h
    simp [Ty.dictlesses, ih1 _ h1, ih2 _ h2]
  case refine_32 | refine_34 =>
    intro t hp ih T h
    rw [resolve, if_pos hp] at h
    obtain ⟨-, T1, h1, rfl⟩ := pick_map h
    exact ih T1 h1
  case refine_33 | refine_35 =>
    intro t hp T h
    rw [resolve, if_neg hp] at h
    cases h
  all_goals
    intros
    rename_i h
    rw [resolve] at h
    first
      | (have := pick_some h; subst this; rfl)
      | (rename_i ih _; obtain ⟨-, T1, h1, rfl⟩ := pick_map h; exact ih T1 h1)

open Verif.Dispatch in
/-- **C91.** Every program that can be compiled: its types, among them vectors of pairs with strings, are of the kind the theorems above are about. So no handler of the parser
refers to an object that is gone, and the outcome is the one of C42-C45. -/
theorem C91_every_program (inc : Header → Bool) (C : Nat → CClass) (env : Env) (hK : Built .parse inc C env.classes) (host : Host) (t : CTy) (T : Ty)
    (hT : resolve .parse inc t = some T) (target : Val) (n : Nat) :
    (∀ es, mparse env host T target n es ≠ .dangling) ∧ ∀ feed, mparseBool env host T feed target n = parseBool env host T feed target n := by
  have ht := resolve_dictless inc t T hT
  have hd : env.Dictless := by
    have key : ∀ (ms : List CMember) (xs : List Member), buildMembers .parse inc ms = some xs → ∀ m ∈ xs, m.ty.dictless = true := by
      intro ms
      induction ms with
      | nil => intro xs h m hm; cases h; cases hm
      | cons c ms ih =>
        intro xs h m hm
        simp only [buildMembers, Option.bind_eq_some_iff, Option.map_eq_some_iff] at h
        obtain ⟨T, hT, xs', hx, rfl⟩ := h
        rcases List.mem_cons.1 hm with rfl | hm
        · exact resolve_dictless inc c.ty T hT
        · exact ih xs' hx m hm
    intro c m hm
    obtain ⟨ms, h1, e⟩ := hK c
    rw [Env.members, e] at hm
    exact key _ _ h1 m hm
  exact ⟨C91_no_dangling env hd host T ht target n, C91_in_place env hd host T ht target n⟩

open Verif.Dispatch in
/-- `std::vector<std::pair<std::string, std::vector<Point>>>` -/
example (es : List Event) (target : Val) : mparse { Demo.env with classes := fun _ => point } Demo.host (.vec (.tuple [.prim .str, .vec (.cls 0)])) target 0 es ≠ .dangling :=
  (C91_every_program everything (fun _ => ⟨point.name, [⟨lit "x", .required, .flt .double⟩, ⟨lit "y", .required, .flt .double⟩]⟩) { Demo.env with classes := fun _ => point }
    (fun _ => ⟨_, rfl, rfl⟩) Demo.host (.vec (.pair .str (.vec (.cls 0)))) _ rfl target 0).1 es

/-! Examples. -/

theorem demo_dictless : Demo.env.Dictless := by
  intro c m hm
  match c with
  | 0 => simp [Env.members, Demo.env, point] at hm; rcases hm with rfl | rfl <;> rfl
  | 1 => simp [Env.members, Demo.env, item] at hm; rcases hm with rfl | rfl | rfl <;> rfl
  | 2 => simp [Env.members, Demo.env, both] at hm; rcases hm with rfl | rfl <;> rfl
  | 3 => simp [Env.members, Demo.env, bag] at hm; rcases hm with rfl | rfl <;> rfl
  | 4 => simp [Env.members, Demo.env, tree] at hm; rcases hm with rfl | rfl <;> rfl
  | 5 =>
    simp [Env.members, Demo.env, sample] at hm
    rcases hm with rfl | rfl | rfl | rfl | rfl | rfl | rfl | rfl | rfl | rfl | rfl <;> rfl
  | n + 6 => simp [Env.members, Demo.env, tree] at hm; rcases hm with rfl | rfl <;> rfl

/-- A vector of sets of vectors of integers, into a variable with one set in it. -/
abbrev nested : Ty := .vec (.set (.vec tInt))

/-- `[[[1` : after these events, five handlers are on the stack, the top one for an element in the storage of the set. -/
def nestedEvents : List Event := [.startArr, .startArr, .startArr, .num (.int 1)]

example : mparse Demo.env Demo.host nested (.seq [.set []]) 0 nestedEvents ≠ .dangling :=
  C91_no_dangling Demo.env demo_dictless Demo.host nested rfl _ 0 _

/-- The handlers for the vector, the set (with storage 1) and the vector in the storage; the variable does not have
the elements of the set yet. -/
theorem nested_state : mparse Demo.env Demo.host nested (.seq [.set []]) 0 nestedEvents =
    .go ⟨[.seq [.set [], .set []], .seq [.seq [.prim (.int 1)]]],
      [⟨.vecItems tInt, .vecItems tInt, ⟨1, [.item 0]⟩, true⟩,
       ⟨.setItems (.vec tInt), .setItems (.vec tInt) 1, ⟨0, [.item 1]⟩, true⟩,
       ⟨.vecItems (.set (.vec tInt)), .vecItems (.set (.vec tInt)), ⟨0, []⟩, true⟩], 0⟩ := by
  with_unfolding_all rfl

example : ∀ g ∈ [(⟨.vecItems tInt, .vecItems tInt, ⟨1, [.item 0]⟩, true⟩ : MFrame),
       ⟨.setItems (.vec tInt), .setItems (.vec tInt) 1, ⟨0, [.item 1]⟩, true⟩,
       ⟨.vecItems (.set (.vec tInt)), .vecItems (.set (.vec tInt)), ⟨0, []⟩, true⟩],
    g.live = true ∧ ∃ v, load [.seq [.set [], .set []], .seq [.seq [.prim (.int 1)]]] g.ref = some v :=
  C91_references Demo.env demo_dictless Demo.host nested rfl _ 0 _ _ nested_state

example : ([.seq [.set [], .set []], .seq [.seq [.prim (.int 1)]]] : List Val).length = 1 + 1 :=
  (C91_lifetimes Demo.env demo_dictless Demo.host nested rfl _ 0 _ _ nested_state).2

example : mparseBool Demo.env Demo.host (.cls 4) (.document treeDoc) (.prim .null) 0 = .accepted treeVal := by
  rw [C91_in_place Demo.env demo_dictless Demo.host (.cls 4) rfl]
  rw [C42_document_partial Demo.env host streamed streamable_classes tables_built 100 host_roomy (.cls 4) (.inr (.inr rfl)) treeDoc
    (by decide +kernel) (by decide +kernel)]
  rfl

example : ∃ s, prun Demo.env Demo.host (start Demo.env nested (.seq [.set []]) 0) nestedEvents = .go s ∧
    ∃ c, mparse Demo.env Demo.host nested (.seq [.set []]) 0 nestedEvents = .go c ∧ c.roots.head? = some s.target ∧
      c.stack.length = s.stack.length := by
  refine ⟨_, rfl, C91_variable Demo.env demo_dictless Demo.host nested rfl _ 0 _ (by decide) _ rfl⟩

example : shaped Demo.env (.arr 2 tInt) (.tup [.prim (.int 1), .prim (.int 2)]) = .tup [.prim (.int 1), .prim (.int 2)] :=
  C91_unwritten Demo.env (fun _ => none) _ _ (by simp [HasTy, AllTy, PrimTy]; decide)

/-- The model tells wrong programs: if the handler of a vector were on top of a handler for one of its elements, then
adding an element would leave the latter with an invalid reference, which the next event uses. -/
example : mrun Demo.env Demo.host ⟨[.seq [.prim (.str [])]],
      [⟨.vecItems tStr, .vecItems tStr, ⟨0, []⟩, true⟩, ⟨.parser tStr, .leaf .str, ⟨0, [.item 0]⟩, true⟩], 0⟩
    [.str (lit "a"), .endArr, .str (lit "b")] = .dangling := by
  with_unfolding_all rfl

end Verif.Props
