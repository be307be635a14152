import Verif.ParseViable
import Verif.ParseMore
import Verif.Props.Parse

/-!
# C96: the streaming parser stops at the first event that rules out every acceptable document
-/

namespace Verif.Props
open Verif.Core Verif.Demo Verif.Numeric

/-- Some document begins with these events and is accepted. -/
def Leads (env : Env) (host : Host) (t : Ty) (target : Val) (n : Nat) (es : List Event) : Prop :=
  ∃ j v, es <+: events j ∧ parseBool env host t (.document j) target n = .accepted v

theorem accepted_runs {env : Env} {host : Host} {t : Ty} {target : Val} {n : Nat} {j : Json} :
    (∃ v, parseBool env host t (.document j) target n = .accepted v) ↔
      room host [] (.parser t) = true ∧ ∃ s, prun env host (start env t target n) (events j) = .go s := by
  unfold parseBool
  by_cases hr : room host [] (.parser t) = true
  · simp only [Feed.events, hr, true_and]
    cases prun env host (start env t target n) (events j) <;> simp
  · simp only [hr]
    simp

/-- **C96, one direction, for all types.** The parser never stops too early: as long as some document begins with
the events so far and is accepted, it goes on. -/
theorem C96_not_early (env : Env) (host : Host) (t : Ty) (target : Val) (n : Nat) (es : List Event) (h : Leads env host t target n es) :
    ∃ s, prun env host (start env t target n) es = .go s := by
  obtain ⟨j, v, ⟨more, hm⟩, hj⟩ := h
  obtain ⟨-, s, hs⟩ := accepted_runs.1 ⟨v, hj⟩
  rw [← hm, prun_append] at hs
  cases hp : prun env host (start env t target n) es with
  | go s1 => exact ⟨s1, rfl⟩
  | _ => rw [hp] at hs; cases hs

example : ∃ s, prun Demo.env Demo.host (start Demo.env (.vec tInt) (.seq []) 0) [.startArr, .num (.int 1)] = .go s :=
  C96_not_early _ _ _ _ _ _ ⟨.arr [.num (.int 1)], .seq [.prim (.int 1)], ⟨[.endArr], rfl⟩, by with_unfolding_all rfl⟩

/-- **C96, partial.** The parser goes on after a sequence of events exactly if some document begins with them and is
accepted: it refuses a document at the first event that rules out every acceptable document, and not later. `H` is a
bound for the depth of the arrays and tuples that the types require, `d` the number of handlers for which there is
room for certain.

Missing: types with enumerations with names, for which the claim is false (`C96_enum_late`), and with variants, which
the parser does not support; events after which less than `H + 1` handlers can be added, where the stack of handlers
may be exhausted before the document is complete (`C25_deep_document_throws`), so that the claim is false too (`C96_deep_late`). -/
theorem C96_continues_partial (env : Env) (host : Host) (G : Nat → Prop) (H d : Nat) (hroom : Roomy host d) (hG : ViableClasses env G H)
    (t : Ty) (ht : Viable G H t) (target : Val) (n : Nat) (es : List Event) (hd : pending es + H + 1 ≤ d) :
    (∃ s, prun env host (start env t target n) es = .go s) ↔ Leads env host t target n es := by
  refine ⟨fun ⟨s, hs⟩ => ?_, C96_not_early env host t target n es⟩
  have hal := along_run hG (along_start hG ht target n) hs
  rw [List.nil_append] at hal
  have hl := along_length hal
  obtain ⟨more, j, s', hj, hr⟩ := along_ends hroom hG s.stack.length hal (Nat.le_refl _) (by omega)
  obtain ⟨v, hv⟩ := (accepted_runs (host := host) (t := t) (target := target) (n := n)).2
    ⟨hroom [] (.parser t) (by simp), s', by rw [← hj, prun_append, hs]; exact hr⟩
  exact ⟨j, v, ⟨more, hj⟩, hv⟩

/-- Prefixes of two lists in a row. -/
theorem prefix_append {α : Type} {es a b : List α} (h : es <+: a ++ b) : es <+: a ∨ ∃ fs, es = a ++ fs ∧ fs <+: b := by
  obtain ⟨more, hm⟩ := h
  rcases List.append_eq_append_iff.1 hm with ⟨x, h1, h2⟩ | ⟨x, h1, h2⟩
  · exact .inl ⟨x, h1.symm⟩
  · exact .inr ⟨x, h1, ⟨more, h2.symm⟩⟩

theorem pending_prefix_items {js : List Json} {b : Nat} (h : ∀ j ∈ js, ∀ es, es <+: events j → pending es ≤ b) :
    ∀ es, es <+: eventsItems js → pending es ≤ b := by
  induction js with
  | nil =>
    intro es he
    obtain rfl : es = [] := by simpa [eventsItems] using he
    rw [pending_nil]; omega
  | cons j js ih =>
    intro es he
    rw [eventsItems] at he
    rcases prefix_append he with h1 | ⟨fs, rfl, h2⟩
    · exact h j (by simp) es h1
    · rw [pending_append, pending_events]
      have := ih (fun j' hj' => h j' (by simp [hj'])) fs h2
      omega

theorem pending_prefix_members {ms : List (Str × Json)} {b : Nat} (h : ∀ p ∈ ms, ∀ es, es <+: events p.2 → pending es ≤ b) :
    ∀ es, es <+: eventsMembers ms → pending es ≤ b := by
  induction ms with
  | nil =>
    intro es he
    obtain rfl : es = [] := by simpa [eventsMembers] using he
    rw [pending_nil]; omega
  | cons p ms ih =>
    obtain ⟨k, j⟩ := p
    intro es he
    rw [eventsMembers, ← List.cons_append] at he
    rcases prefix_append he with h1 | ⟨fs, rfl, h2⟩
    · rcases List.prefix_cons_iff.1 h1 with rfl | ⟨fs, rfl, h3⟩
      · rw [pending_nil]; omega
      · rw [pending_cons]
        have := h (k, j) (by simp) fs h3
        simpa [Event.opens] using this
    · rw [pending_append, pending_cons, pending_events]
      have := ih (fun p' hp' => h p' (by simp [hp'])) fs h2
      simpa [Event.opens] using this

theorem depth_item {js : List Json} {j : Json} (h : j ∈ js) : j.depth ≤ Json.depthAll js := depthAll_le.1 (Nat.le_refl _) j h

theorem depth_member {ms : List (Str × Json)} {p : Str × Json} (h : p ∈ ms) : p.2.depth ≤ Json.depthFields ms := by
  induction ms with
  | nil => cases h
  | cons q ms ih =>
    obtain ⟨k, j⟩ := q
    rw [Json.depthFields]
    rcases List.mem_cons.1 h with rfl | h
    · exact Nat.le_max_left ..
    · exact Nat.le_trans (ih h) (Nat.le_max_right ..)

/-- No more containers are open than the document is deep. -/
theorem pending_prefix (j : Json) : ∀ es, es <+: events j → pending es ≤ j.depth := by
  generalize hn : sizeOf j = n
  induction n using Nat.strongRecOn generalizing j with
  | ind n ih =>
    subst hn
    have hscalar : ∀ e : Event, e.opens = 0 → ∀ es, es <+: [e] → pending es ≤ (0 : Nat) := by
      intro e he es h
      rcases List.prefix_cons_iff.1 h with rfl | ⟨fs, rfl, h'⟩
      · exact Int.le_refl _
      · obtain rfl : fs = [] := by simpa using h'
        rw [pending_cons, he]
        exact Int.le_refl _
    have hin : ∀ (a z : Event) (parts : List Event) (b : Nat), a.opens = 1 → z.opens = -1 → (∀ es, es <+: parts → pending es ≤ b) → pending parts = 0 →
        ∀ es, es <+: a :: (parts ++ [z]) → pending es ≤ ((b + 1 : Nat) : Int) := by
      intro a z parts b ha hz hp h0 es h
      rcases List.prefix_cons_iff.1 h with rfl | ⟨fs, rfl, h'⟩
      · rw [pending_nil]; omega
      · rw [pending_cons, ha]
        rcases prefix_append h' with h1 | ⟨gs, rfl, h2⟩
        · have := hp fs h1
          omega
        · rw [pending_append, h0]
          rcases List.prefix_cons_iff.1 h2 with rfl | ⟨fs, rfl, h'⟩
          · rw [pending_nil]; omega
          · obtain rfl : fs = [] := by simpa using h'
            rw [pending_cons, hz, pending_nil]; omega
    cases j with
    | arr js =>
      rw [events, Json.depth, Nat.add_comm]
      refine hin _ _ _ (Json.depthAll js) rfl rfl (pending_prefix_items fun j hj es he => ?_) (pending_items fun j _ => pending_events j)
      have h1 := ih (sizeOf j) (by have := List.sizeOf_lt_of_mem hj; simp; omega) j rfl es he
      have h2 := depth_item hj
      omega
    | obj ms =>
      rw [events, Json.depth, Nat.add_comm]
      refine hin _ _ _ (Json.depthFields ms) rfl rfl (pending_prefix_members fun p hp es he => ?_) (pending_members fun p _ => pending_events p.2)
      have h1 := ih (sizeOf p.2) (by
        have h1 := List.sizeOf_lt_of_mem hp
        have : sizeOf p = 1 + sizeOf p.1 + sizeOf p.2 := by cases p; rfl
        simp; omega) p.2 rfl es he
      have h2 := depth_member hp
      omega
    | null => exact hscalar _ rfl
    | bool b => exact hscalar _ rfl
    | num m => exact hscalar _ rfl
    | str s => exact hscalar _ rfl

/-- **C96, partial.** A document that is not accepted is refused at one event: the events before it begin an
acceptable document, with this event no more. (It may be refused with `false` or, for a time stamp that overflows the
clock, with undefined behaviour.)

Missing: as in `C96_continues_partial`. -/
theorem C96_refused_partial (env : Env) (host : Host) (G : Nat → Prop) (H d : Nat) (hroom : Roomy host d) (hG : ViableClasses env G H)
    (t : Ty) (ht : Viable G H t) (target : Val) (n : Nat) (j : Json) (hd : j.depth + H + 1 ≤ d)
    (hj : ∀ v, parseBool env host t (.document j) target n ≠ .accepted v) :
    ∃ es e more, events j = es ++ e :: more ∧ Leads env host t target n es ∧ ¬ Leads env host t target n (es ++ [e]) ∧
      (∃ s, prun env host (start env t target n) es = .go s) ∧ ∀ s, prun env host (start env t target n) (es ++ [e]) ≠ .go s := by
  have hno : ∀ s, prun env host (start env t target n) (events j) ≠ .go s := by
    intro s hs
    obtain ⟨v, hv⟩ := (accepted_runs (host := host) (t := t) (target := target) (n := n)).2 ⟨hroom [] (.parser t) (by simp), s, hs⟩
    exact hj v hv
  have hsplit : ∀ (fs : List Event) (s : PState), (∀ s', prun env host s fs ≠ .go s') →
      ∃ es e more, fs = es ++ e :: more ∧ (∃ s', prun env host s es = .go s') ∧ ∀ s', prun env host s (es ++ [e]) ≠ .go s' := by
    intro fs
    induction fs with
    | nil => intro s h; exact absurd rfl (h s)
    | cons e fs ih =>
      intro s h
      by_cases he : ∃ s1, pstep env host s e = .go s1
      · obtain ⟨s1, h1⟩ := he
        obtain ⟨es, e', more, h2, ⟨s', h3⟩, h4⟩ := ih s1 fun s' hs' => h s' (by rw [prun_cons, h1]; exact hs')
        refine ⟨e :: es, e', more, by rw [h2]; rfl, ⟨s', by rw [prun_cons, h1]; exact h3⟩, fun s'' h5 => h4 s'' ?_⟩
        rw [List.cons_append, prun_cons, h1] at h5
        exact h5
      · refine ⟨[], e, fs, rfl, ⟨s, rfl⟩, fun s' h5 => he ?_⟩
        rw [List.nil_append, prun_cons] at h5
        cases h6 : pstep env host s e with
        | go s1 => exact ⟨s1, rfl⟩
        | _ => rw [h6] at h5; cases h5
  obtain ⟨es, e, more, h1, h2, h3⟩ := hsplit (events j) _ hno
  have hp : pending es ≤ j.depth := pending_prefix j es ⟨_, h1.symm⟩
  refine ⟨es, e, more, h1, (C96_continues_partial env host G H d hroom hG t ht target n es (by omega)).1 h2, fun hl => ?_, h2, h3⟩
  obtain ⟨s, hs⟩ := C96_not_early env host t target n _ hl
  exact h3 s hs

/-- The classes point, item and tree need no array or object inside of an array. -/
theorem viable_classes : ViableClasses Demo.env streamed 1 := by
  intro c hc
  rcases hc with rfl | rfl | rfl
  · refine ⟨by simp [Env.members, Demo.env, point], ?_⟩
    intro m hm
    simp only [Env.members, Demo.env, point, List.mem_cons, List.not_mem_nil, or_false] at hm
    rcases hm with rfl | rfl <;> exact rfl
  · refine ⟨by simp [Env.members, Demo.env, item], ?_⟩
    intro m hm
    simp only [Env.members, Demo.env, item, List.mem_cons, List.not_mem_nil, or_false] at hm
    rcases hm with rfl | rfl | rfl <;> exact rfl
  · refine ⟨by simp [Env.members, Demo.env, tree], ?_⟩
    intro m hm
    simp only [Env.members, Demo.env, tree, List.mem_cons, List.not_mem_nil, or_false] at hm
    rcases hm with rfl | rfl
    · exact rfl
    · exact ⟨Nat.le_refl _, Nat.le_refl _, .inr (.inr rfl)⟩

/-- `{"children": [{"value": 1, "children": [` leads to a tree. -/
example : Leads Demo.env Demo.host (.cls 4) (.prim .null) 0
    [.startObj, .key (lit "children"), .startArr, .startObj, .key (lit "value"), .num (.int 1), .key (lit "children"), .startArr] :=
  (C96_continues_partial Demo.env Demo.host streamed 1 100 host_roomy viable_classes (.cls 4) ⟨Nat.le_refl _, .inr (.inr rfl)⟩ _ 0 _
    (by decide)).1 ⟨_, by with_unfolding_all rfl⟩

/-- No tree has a string as its value, and the parser stops there. -/
example : ¬ Leads Demo.env Demo.host (.cls 4) (.prim .null) 0 [.startObj, .key (lit "value"), .str (lit "a")] := by
  rw [← C96_continues_partial Demo.env Demo.host streamed 1 100 host_roomy viable_classes (.cls 4) ⟨Nat.le_refl _, .inr (.inr rfl)⟩ _ 0 _ (by decide)]
  rintro ⟨s, hs⟩
  have : prun Demo.env Demo.host (start Demo.env (.cls 4) (.prim .null) 0) [.startObj, .key (lit "value"), .str (lit "a")] = .fail := by
    with_unfolding_all rfl
  rw [this] at hs
  cases hs

/-- A tuple of two pairs of which the second has one component only. -/
example : ∃ es e more, events (.arr [.arr [.num (.int 1), .num (.int 2)], .arr [.num (.int 3)], .num (.int 4)]) = es ++ e :: more ∧
    Leads Demo.env Demo.host (.tuple [.tuple [tInt, tInt], .tuple [tInt, tInt]]) (.prim .null) 0 es ∧
    ¬ Leads Demo.env Demo.host (.tuple [.tuple [tInt, tInt], .tuple [tInt, tInt]]) (.prim .null) 0 (es ++ [e]) := by
  have hr : parseBool Demo.env Demo.host (.tuple [.tuple [tInt, tInt], .tuple [tInt, tInt]])
      (.document (.arr [.arr [.num (.int 1), .num (.int 2)], .arr [.num (.int 3)], .num (.int 4)])) (.prim .null) 0 = .rejected := by
    with_unfolding_all rfl
  obtain ⟨es, e, more, h1, h2, h3, -⟩ := C96_refused_partial Demo.env Demo.host (fun _ => False) 2 100 host_roomy (fun _ h => h.elim)
    (.tuple [.tuple [tInt, tInt], .tuple [tInt, tInt]])
    (by simp [Viable, ViableAll, Prim.stays, least, leastAll, leastLeaf, Json.depth, Json.depthAll]) (.prim .null) 0
    (.arr [.arr [.num (.int 1), .num (.int 2)], .arr [.num (.int 3)], .num (.int 4)]) (by decide) (fun v => by rw [hr]; simp)
  exact ⟨es, e, more, h1, h2, h3⟩

/-- **C96, negation.** The events `[` and `["red"` for a tuple with an enumeration with names: the parser goes on, but
whatever follows, no document is accepted. -/
theorem C96_enum_late (target : Val) (n : Nat) : ∀ es ∈ [[Event.startArr], [.startArr, .str (lit "red")]],
    (∃ s, prun Demo.env Demo.host (start Demo.env (.tuple [tColor]) target n) es = .go s) ∧
      ¬ Leads Demo.env Demo.host (.tuple [tColor]) target n es := by
  intro es he
  refine ⟨?_, fun ⟨j, v, _, h⟩ => (C44_nested_rejected Demo.env Demo.host tColor trivial target v n).2.2.2.2.1 [tColor] j (by simp) h⟩
  simp only [List.mem_cons, List.not_mem_nil, or_false] at he
  rcases he with rfl | rfl
  · exact ⟨_, by with_unfolding_all rfl⟩
  · have h1 : room Demo.host [] (.fixed (.tuple [tColor]) 0) = true := host_roomy _ _ (by simp)
    have h2 : room Demo.host [] (.fixed (.tuple [tColor]) 1) = true := host_roomy _ _ (by simp)
    have h3 : room Demo.host [.fixed (.tuple [tColor]) 1] (.parser tColor) = true := host_roomy _ _ (by simp)
    have h4 : leafParse Demo.env (.enumStr [(0, lit "red"), (1, lit "green"), (2, lit "blue")]) (.str (lit "red")) = .ok (.int 0) := by decide +kernel
    simp [prun, start, openP, pstep, openStep, replaceTop, emplaceP, h1, h2, h3, h4, Event.startsValue, Prim.stays]

/-- `std::array<std::array<…, 1>, 1>`, `k` times. -/
def boxes (t : Ty) : Nat → Ty
  | 0 => t
  | k + 1 => .arr 1 (boxes t k)

theorem boxes_room (env : Env) (host : Host) (t : Ty) : ∀ (k : Nat) (j : Json) (K : List HClass) (target : Val) (n n' : Nat) (v : Val) (m : Nat), K.length ≤ 128 →
    pval env host j K (openP env (boxes t k) target n).1 n' = .ok v m → K.length + k ≤ 128
  | 0, _, _, _, _, _, _, _, h, _ => h
  | k + 1, j, K, target, n, n', v, m, h, hp => by
    simp only [boxes, openP] at hp
    cases j with
    | arr js =>
      rw [pval, array_iff] at hp
      rcases hp with ⟨_, _, _, h1, _⟩ | ⟨_, _, _, h1, _⟩ | ⟨C, ts, vs, us, h1, h2, h3, rfl⟩
      · cases h1
      · cases h1
      · cases h1
        have hl : K.length < 128 := by
          simp only [room, Bool.and_eq_true, decide_eq_true_eq] at h2
          exact h2.1
        cases js with
        | nil => simp [pitems, loopFix] at h3
        | cons j js =>
          rw [pitems, fix_iff] at h3
          obtain ⟨t', h4, h5, h6⟩ := h3
          simp only [List.replicate_one, List.getElem?_cons_zero, Option.some.injEq] at h4
          subst h4
          obtain ⟨h7, v', m', h8, -⟩ := child_iff.1 h6
          have := boxes_room env host t k j (.fixed (.arr 1 (boxes t k)) (0 + 1) :: K) _ _ _ _ _ (by simp only [List.length_cons]; omega) h8
          simp only [List.length_cons] at this
          omega
    | _ => simp [pval, scalar, objectFn] at hp

/-- **C96, negation, the stack of handlers.** For a type that is nested too deep, no document is accepted, whatever the sizes of the handlers are, but the parser
begins to read. -/
theorem C96_deep_late (env : Env) (host : Host) (hroom : Roomy host 0) (t : Ty) (k : Nat) (hk : 129 ≤ k) (target : Val) (n : Nat) :
    (∃ s, prun env host (start env (boxes t k) target n) [.startArr] = .go s) ∧ ¬ Leads env host (boxes t k) target n [.startArr] := by
  obtain ⟨k, rfl⟩ : ∃ k', k = k' + 1 := ⟨k - 1, by omega⟩
  constructor
  · have h1 : room host [] (.fixed (boxes t (k + 1)) 0) = true := hroom _ _ (Nat.le_refl _)
    rw [boxes] at h1
    exact ⟨_, by simp [prun, start, boxes, openP, pstep, openStep, replaceTop, h1]; rfl⟩
  · rintro ⟨j, v, -, h⟩
    rw [parseBool_document] at h
    split at h
    · split at h
      rename_i hh w n' ho
      have hh' : hh = (openP env (boxes t (k + 1)) target n).1 := by rw [ho]
      split at h
      · rename_i hp
        rw [hh'] at hp
        have := boxes_room env host t (k + 1) j [] target n n' _ _ (by simp) hp
        simp at this
        omega
      · rename_i hp
        obtain ⟨-, v', hv⟩ := pval_stuck _ _ _ _ _ _ _ _ _ hp
        rw [hv] at hh'
        simp [boxes, openP] at hh'
      all_goals cases h
    · cases h

example : (∃ s, prun Demo.env Demo.host (start Demo.env (boxes tInt 200) (.tup []) 0) [.startArr] = .go s) ∧
    ¬ Leads Demo.env Demo.host (boxes tInt 200) (.tup []) 0 [.startArr] :=
  C96_deep_late _ _ (fun K c h => host_roomy K c (by omega)) _ _ (by decide) _ _

end Verif.Props
