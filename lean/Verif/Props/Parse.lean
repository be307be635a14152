import Verif.ParseFacts
import Verif.RenderLemmas
import Verif.Demo
import Verif.Props.EnumConv

/-!
# C25, C37, C39, C42-C45: the streaming parser
-/

namespace Verif.Demo
open Verif.Core Verif.Numeric Verif.EnumConv Verif.PerfectHash

/-- A host: handlers of 40 bytes, aligned to 8, signed characters, hash tables as constructed. -/
def host : Host where
  size := fun _ => 40
  align := fun _ => 8
  charSigned := true
  table := fun c => match build true ((env.members c).map (·.name)) 100 with | .ok t => t | _ => ⟨[], []⟩

theorem tables_built : TablesBuilt env host := by
  have key : ∀ c, (env.members c).length ≤ 2 ^ 63 ∧ (3 ≤ (env.members c).length → ∃ t, build true ((env.members c).map (·.name)) 100 = .ok t) := by
    have hs : (env.members 5).length ≤ 2 ^ 63 ∧ ∃ t, build true ((env.members 5).map (·.name)) 100 = .ok t := by
      refine ⟨by decide, ?_⟩
      have : (match build true ((env.members 5).map (·.name)) 100 with | .ok _ => true | _ => false) = true := by decide +kernel
      split at this
      · exact ⟨_, by assumption⟩
      · cases this
    have hi : (env.members 1).length ≤ 2 ^ 63 ∧ ∃ t, build true ((env.members 1).map (·.name)) 100 = .ok t := by
      refine ⟨by decide, ?_⟩
      have : (match build true ((env.members 1).map (·.name)) 100 with | .ok _ => true | _ => false) = true := by decide +kernel
      split at this
      · exact ⟨_, by assumption⟩
      · cases this
    intro c
    match c with
    | 0 => exact ⟨by decide, fun h => absurd h (by decide)⟩
    | 1 => exact ⟨hi.1, fun _ => hi.2⟩
    | 2 => exact ⟨by decide, fun h => absurd h (by decide)⟩
    | 3 => exact ⟨by decide, fun h => absurd h (by decide)⟩
    | 4 => exact ⟨by decide, fun h => absurd h (by decide)⟩
    | 5 => exact ⟨hs.1, fun _ => hs.2⟩
    | n + 6 => exact ⟨by simp [Env.members, env, tree], by simp [Env.members, env, tree]⟩
  intro c
  refine ⟨(key c).1, 100, by decide, fun h => ?_⟩
  obtain ⟨t, ht⟩ := (key c).2 h
  simp only [host, ht]

theorem host_roomy : Roomy host 100 := roomy_of_sizes host 40 8 100 (fun _ => Nat.le_refl _) (fun _ => Nat.le_refl _) (by decide) (by decide)

/-- The classes point, item and tree. -/
def streamed (c : Nat) : Prop := c = 0 ∨ c = 1 ∨ c = 4

theorem streamable_classes : StreamableClasses env streamed := by
  intro c hc
  rcases hc with rfl | rfl | rfl
  · refine ⟨by simp [Env.members, env, point], ?_⟩
    intro m hm
    simp only [Env.members, env, point, List.mem_cons, List.not_mem_nil, or_false] at hm
    rcases hm with rfl | rfl <;> exact rfl
  · refine ⟨by simp [Env.members, env, item], ?_⟩
    intro m hm
    simp only [Env.members, env, item, List.mem_cons, List.not_mem_nil, or_false] at hm
    rcases hm with rfl | rfl | rfl <;> exact rfl
  · refine ⟨by simp [Env.members, env, tree], ?_⟩
    intro m hm
    simp only [Env.members, env, tree, List.mem_cons, List.not_mem_nil, or_false] at hm
    rcases hm with rfl | rfl
    · exact rfl
    · exact ⟨rfl, .inr (.inr rfl)⟩

end Verif.Demo

namespace Verif.Props
open Verif.Core Verif.Numeric Verif.EnumConv Verif.Demo

/-! ## C42 -/

/-- What `parse` returns when it computes the meaning. -/
def verdictOf : Means Val → ParseBool
  | .ub => .ub
  | .no => .rejected
  | .yes v _ => .accepted v

/-- **C42, partial.** `parse` accepts exactly the documents that mean a value of the type, and leaves this value
in the target: for types without variants, enumerations with names, vectors and sets of characters or of
enumerations without names; documents that do not exhaust the handler stack. `d` is the number of handlers for
which there is room for certain.

Missing: the types left out, for which the claim is false (`C44_nested_rejected`, `C45_numbers_rejected`); deeper
documents (`C25_deep_document_throws`). -/
theorem C42_document_partial (env : Env) (host : Host) (G : Nat → Prop) (hG : StreamableClasses env G) (hb : TablesBuilt env host)
    (d : Nat) (hroom : Roomy host d) (t : Ty) (ht : Streamable G t) (j : Json) (hd : j.depth ≤ d) (hp : j.proper = true)
    (target : Val) (n : Nat) : parseBool env host t (.document j) target n = verdictOf (meaning env j t target n) := by
  rw [parseBool_document, if_pos (hroom [] _ (by simp))]
  have := computes env host G hG (selects_of_build env host hb) d hroom j t target n [] ht (by simpa using hd) hp
  generalize openP env t target n = o at this ⊢
  obtain ⟨h, w, n'⟩ := o
  simp only at this ⊢
  generalize pval env host j [] h n' = r at this ⊢
  generalize meaning env j t target n = m at this ⊢
  cases r <;> cases m <;> simp only [PAgree] at this
  · obtain ⟨rfl, -⟩ := this; rfl
  · rfl
  · rfl

/-- A document for a tree: `{"value": 1, "children": [{"value": 2}, {"children": [], "value": 3}]}`. -/
def treeDoc : Json := .obj [(lit "value", .num (.int 1)), (lit "children", .arr [.obj [(lit "value", .num (.int 2))],
  .obj [(lit "children", .arr []), (lit "value", .num (.int 3))]])]

/-- What it means. -/
def treeVal : Val := .obj [.prim (.int 1), .seq [.obj [.prim (.int 2), .prim .null], .obj [.prim (.int 3), .seq []]]]

example : parseBool Demo.env host (.cls 4) (.document treeDoc) (.prim .null) 0 = .accepted treeVal := by
  rw [C42_document_partial Demo.env host streamed streamable_classes tables_built 100 host_roomy (.cls 4) (.inr (.inr rfl)) treeDoc
    (by decide +kernel) (by decide +kernel)]
  rfl

/-- **C42, partial.** The same at any place of a document, for any handlers below and whatever events follow: the
handler put on the stack for a value of type `t` consumes exactly the events of the document, and then the value
meant is put into the object of the handler below and the handler below continues. -/
theorem C42_anywhere_partial (env : Env) (host : Host) (G : Nat → Prop) (hG : StreamableClasses env G) (hb : TablesBuilt env host)
    (d : Nat) (hroom : Roomy host d) (t : Ty) (ht : Streamable G t) (j : Json) (hp : j.proper = true) (target : Val) (n : Nat)
    (rest : List Frame) (hd : rest.length + j.depth ≤ d) (fin : Option Val) (c : HClass) (link : Link) (outer : Val → Val) (more : List Event) :
    prun env host ⟨⟨c, (openP env t target n).1, link, fun v => outer ((openP env t target n).2.1 v)⟩ :: rest, fin,
      (openP env t target n).2.2⟩ (events j ++ more) =
    match meaning env j t target n with
    | .ub => .ub
    | .no => .fail
    | .yes v n' => prun env host (popTo outer link v rest fin n') more := by
  have h1 := computes env host G hG (selects_of_build env host hb) d hroom j t target n (rest.map (·.cls)) ht (by simpa using hd) hp
  have h2 := delivers env host j ⟨c, (openP env t target n).1, link, fun v => outer ((openP env t target n).2.1 v)⟩ rest fin
    (openP env t target n).2.2 more (openP_isOpen env t target n)
  rw [h2]
  generalize openP env t target n = o at h1 ⊢
  obtain ⟨h, w, n'⟩ := o
  simp only at h1 ⊢
  generalize pval env host j (rest.map (·.cls)) h n' = r at h1 ⊢
  generalize meaning env j t target n = m at h1 ⊢
  cases r <;> cases m <;> simp only [PAgree] at h1
  · obtain ⟨rfl, rfl⟩ := h1
    cases rest <;> rfl
  · rfl
  · rfl

/-- A handler of a vector of trees that has one tree already. -/
def below : List Frame := [⟨.vecItems (.cls 4), .vecItems (.cls 4) [treeVal], .root, id⟩]

example (more : List Event) : prun Demo.env host ⟨⟨.parser (.cls 4), (openP Demo.env (.cls 4) (.prim .null) 7).1, .item,
    fun v => id ((openP Demo.env (.cls 4) (.prim .null) 7).2.1 v)⟩ :: below, none, 7⟩ (events treeDoc ++ more) =
    prun Demo.env host ⟨[⟨.vecItems (.cls 4), .vecItems (.cls 4) [treeVal, treeVal], .root, id⟩], none, 7⟩ more :=
  C42_anywhere_partial Demo.env host streamed streamable_classes tables_built 100 host_roomy (.cls 4) (.inr (.inr rfl)) treeDoc
    (by decide +kernel) (.prim .null) 7 below (by decide +kernel) none (.parser (.cls 4)) .item id more

/-- **C42.** For every type and document, of whatever kind: what the handler of a value does with the events of a
document does not depend on the handlers below or on the handler stack (as long as there is room), in any state:
the outcome for one stack is the outcome for another, with the rest of the stack exchanged. -/
theorem C42_surroundings (env : Env) (host : Host) (d : Nat) (hroom : Roomy host d) (t : Ty) (j : Json) (target : Val) (n : Nat)
    (rest rest' : List Frame) (hd : rest.length + j.depth ≤ d) (hd' : rest'.length + j.depth ≤ d) :
    ∃ r : PartRes Val, ∀ s, s = rest ∨ s = rest' → ∀ fin c link outer more,
      prun env host ⟨⟨c, (openP env t target n).1, link, outer⟩ :: s, fin, (openP env t target n).2.2⟩ (events j ++ more) =
        after env host ⟨c, (openP env t target n).1, link, outer⟩ s fin more r := by
  refine ⟨pval env host j (rest.map (·.cls)) (openP env t target n).1 (openP env t target n).2.2, ?_⟩
  intro s hs fin c link outer more
  have h2 := delivers env host j ⟨c, (openP env t target n).1, link, outer⟩ s fin (openP env t target n).2.2 more
    (openP_isOpen env t target n)
  rw [h2]
  rcases hs with rfl | rfl
  · rfl
  · rw [((quiet env host d hroom j) (rest.map (·.cls)) (s.map (·.cls)) (openP env t target n).1 (openP env t target n).2.2
      (by simpa using hd) (by simpa using hd')).1]

example : ∃ r : PartRes Val, ∀ s, s = below ∨ s = [] → ∀ fin c link outer more,
      prun Demo.env host ⟨⟨c, (openP Demo.env (.cls 5) .nullptr 0).1, link, outer⟩ :: s, fin, (openP Demo.env (.cls 5) .nullptr 0).2.2⟩
        (events treeDoc ++ more) = after Demo.env host ⟨c, (openP Demo.env (.cls 5) .nullptr 0).1, link, outer⟩ s fin more r :=
  C42_surroundings Demo.env host 100 host_roomy (.cls 5) treeDoc .nullptr 0 below [] (by decide +kernel) (by decide +kernel)

/-! ## C43 -/

/-- **C43.** For every type, document and state of the target, the run on any first part of the events of the
document ends without a call of a missing handler; and unless the part is the whole document, there is a handler
for the next event. (Handlers pop only themselves, being the top of the stack: `pstep`.) -/
theorem C43_handler_present (env : Env) (host : Host) (t : Ty) (j : Json) (target : Val) (n : Nat) (es more : List Event)
    (he : es ++ more = events j) :
    prun env host (start env t target n) es ≠ .noHandler ∧
      ∀ s, prun env host (start env t target n) es = .go s → more ≠ [] → s.stack ≠ [] := by
  have hall : prun env host (start env t target n) (es ++ more) ≠ .noHandler := by
    rw [he]
    unfold start
    have ho := openP_isOpen env t target n
    generalize openP env t target n = o at ho ⊢
    obtain ⟨h, w, n'⟩ := o
    simp only at ho ⊢
    have := delivers env host j ⟨.parser t, h, .root, w⟩ [] none n' [] ho
    rw [List.append_nil] at this
    rw [this]
    simp only [List.map_nil]
    cases pval env host j [] h n' <;> simp [after, prun]
  rw [prun_append] at hall
  constructor
  · intro h
    rw [h] at hall
    exact hall rfl
  · intro s hs hm hst
    rw [hs] at hall
    cases more with
    | nil => exact hm rfl
    | cons e more =>
      obtain ⟨st, fin, m⟩ := s
      simp only at hst
      subst hst
      exact hall rfl

example : ∀ s, prun Demo.env host (start Demo.env (.cls 4) .nullptr 0) ((events treeDoc).take 5) = .go s → s.stack ≠ [] := by
  intro s hs
  exact (C43_handler_present Demo.env host (.cls 4) treeDoc .nullptr 0 ((events treeDoc).take 5) ((events treeDoc).drop 5)
    (List.take_append_drop ..)).2 s hs (by simp [treeDoc, events, eventsMembers, eventsItems])

/-! ## C25 -/

/-- What `rapidjson::Reader` reports: a document, or the first part of the events of some document before a syntax
error. -/
def Feed.From (j : Json) : Feed → Prop
  | .document j' => j' = j
  | .broken es => ∃ more, es ++ more = events j

/-- **C25, partial.** For every type, parsing a document that is not nested deeper than the handler stack allows
does not throw, and neither does parsing an incomplete document of this kind. `d` can be 100 if handlers have up to
40 bytes.

Missing: deeper documents, for which the claim is false. -/
theorem C25_no_exception_partial (env : Env) (host : Host) (d : Nat) (hroom : Roomy host d) (t : Ty) (j : Json) (hd : j.depth ≤ d)
    (feed : Feed) (hf : Feed.From j feed) (target : Val) (n : Nat) : parseBool env host t feed target n ≠ .threw := by
  have hall : prun env host (start env t target n) (events j) ≠ .threw := by
    unfold start
    have ho := openP_isOpen env t target n
    generalize openP env t target n = o at ho ⊢
    obtain ⟨h, w, n'⟩ := o
    simp only at ho ⊢
    have := delivers env host j ⟨.parser t, h, .root, w⟩ [] none n' [] ho
    rw [List.append_nil] at this
    rw [this]
    have hq := (quiet env host d hroom j [] [] h n' (by simpa using hd) (by simpa using hd)).2
    simp only [List.map_nil]
    cases hp : pval env host j [] h n' <;> simp_all [after, prun]
  unfold parseBool
  rw [if_pos (hroom [] _ (by simp))]
  have hev : prun env host (start env t target n) feed.events ≠ .threw := by
    cases feed with
    | document j' => cases hf; exact hall
    | broken es =>
      obtain ⟨more, hm⟩ := hf
      rw [← hm, prun_append] at hall
      intro h
      simp only [Feed.events] at h
      rw [h] at hall
      exact hall rfl
  cases hr : prun env host (start env t target n) feed.events with
  | go s => cases feed <;> simp
  | threw => exact absurd hr hev
  | _ => simp

example (target : Val) : parseBool Demo.env host (.cls 5) (.broken ((events treeDoc).take 7)) target 0 ≠ .threw :=
  C25_no_exception_partial Demo.env host 100 host_roomy (.cls 5) treeDoc (by decide +kernel) (.broken ((events treeDoc).take 7))
    ⟨(events treeDoc).drop 7, List.take_append_drop ..⟩ target 0

/-- `{"children": [{"children": [ … {} … ]}]}` with `n` levels. -/
def chain : Nat → Json
  | 0 => .obj []
  | n + 1 => .obj [(lit "children", .arr [chain n])]

theorem chain_throws (host : Host) (N m : Nat) (hfull : ∀ (K : List HClass) (c : HClass), N ≤ K.length → room host K c = false) :
    ∀ (K : List HClass) (vs : List Val) (n : Nat), N ≤ K.length + 2 * m → pval Demo.env host (chain m) K (.objStart 4 vs) n = .threw := by
  induction m with
  | zero =>
    intro K vs n hK
    rw [chain, pval, objectFn, hfull K _ (by omega)]
    rfl
  | succ m ih =>
    intro K vs n hK
    rw [chain, pval, objectFn]
    by_cases h1 : room host K (.object 4) = true
    · rw [if_pos h1]
      have hsel : selectMember Demo.env host 4 (lit "children") = .member 1 := rfl
      have hmem : (Demo.env.members 4)[1]? = some ⟨lit "children", .required, .vec (.cls 4)⟩ := rfl
      have hk : (Kind.required = Kind.optional) ↔ False := by decide
      simp only [pfields, loopObj, hsel, hmem, hk, if_false, withChild]
      by_cases h2 : room host (.object 4 :: K) (.parser (.vec (.cls 4))) = true
      · rw [if_pos h2]
        simp only [openP, pval, arrayFn]
        by_cases h3 : room host (.object 4 :: K) (.vecItems (.cls 4)) = true
        · rw [if_pos h3]
          have hd : direct (.cls 4) = none := rfl
          have hfst : first (chain m) = .startObj := by cases m <;> rfl
          have htok : isToken (.cls 4) (first (chain m)) = true := by rw [hfst]; rfl
          simp only [pitems, loopVec, hd, htok, if_true, withChild]
          by_cases h4 : room host (.vecItems (.cls 4) :: .object 4 :: K) (.parser (.cls 4)) = true
          · rw [if_pos h4]
            have hne : Demo.env.members 4 ≠ [] := by simp [Env.members, Demo.env, tree]
            simp only [openP, if_neg hne]
            rw [ih (.vecItems (.cls 4) :: .object 4 :: K) _ n (by simp only [List.length_cons]; omega)]
            rfl
          · rw [if_neg h4]; rfl
        · rw [if_neg h3]; rfl
      · rw [if_neg h2]; rfl
    · rw [if_neg h1]

/-- **C25, negation.** `struct Tree { int value; std::vector<Tree> children; }`: for every host, a syntactically
correct document of type `Tree` with 64 or more levels makes `bool parse(...)` throw. -/
theorem C25_deep_document_throws (host : Host) (m : Nat) (hm : 64 ≤ m) (target : Val) (n : Nat) :
    parseBool Demo.env host (.cls 4) (.document (chain m)) target n = .threw := by
  rw [parseBool_document]
  have hne : Demo.env.members 4 ≠ [] := by simp [Env.members, Demo.env, tree]
  simp only [openP, if_neg hne]
  rw [chain_throws host 128 m (fun K c hK => by simp [room]; omega) [] _ n (by simp; omega)]
  simp

/-- **C25, negation.** The size of the handlers is limited, too: when each of them has at least `L` bytes, then a document of type
`Tree` with 2048 / `L` or more levels makes `bool parse(...)` throw. -/
theorem C25_big_handlers_throw (host : Host) (L : Nat) (hL : ∀ c, L ≤ host.size c) (m : Nat) (hm : 4096 ≤ 2 * m * L) (target : Val) (n : Nat) :
    parseBool Demo.env host (.cls 4) (.document (chain m)) target n = .threw := by
  rw [parseBool_document]
  have hne : Demo.env.members 4 ≠ [] := by simp [Env.members, Demo.env, tree]
  have hused : ∀ K, K.length * L ≤ used host K := by
    intro K
    induction K with
    | nil => simp [used]
    | cons c K ih => have := hL c; simp only [used, List.length_cons, Nat.add_mul, Nat.one_mul]; omega
  have hfull : ∀ (K : List HClass) (c : HClass), 2 * m ≤ K.length → room host K c = false := by
    intro K c hK
    have h1 := hused K
    have h2 := Nat.mul_le_mul_right L hK
    simp [room]; omega
  simp only [openP, if_neg hne]
  rw [chain_throws host (2 * m) m hfull [] _ n (by simp)]
  simp

/-- With handlers of 256 bytes, 8 levels are too many. -/
example (target : Val) (n : Nat) : parseBool Demo.env { host with size := fun _ => 256 } (.cls 4) (.document (chain 8)) target n = .threw :=
  C25_big_handlers_throw _ 256 (fun _ => Nat.le_refl _) 8 (by decide) target n

/-- The documents mean a tree. -/
theorem chain_means (m : Nat) : ∀ (target : Val) (n : Nat), ∃ v, meaning Demo.env (chain m) (.cls 4) target n = .yes v n := by
  induction m with
  | zero => intro target n; exact ⟨_, rfl⟩
  | succ m ih =>
    intro target n
    obtain ⟨v, hv⟩ := ih (Demo.env.ctor (.cls 4)) n
    have hmem : memberAt (Demo.env.members 4) (lit "children") = some 1 := rfl
    have hget : (Demo.env.members 4)[1]? = some ⟨lit "children", .required, .vec (.cls 4)⟩ := rfl
    have hk : (Kind.required = Kind.optional) ↔ False := by decide
    rw [chain, meaning]
    simp only [nodeM, meaningFields, membersM, hmem, hget, hk, if_false, meaning, meaningItems, manyM, hv, Means.bind, Means.map]
    exact ⟨_, rfl⟩

example (target : Val) (n : Nat) : parseBool Demo.env host (.cls 4) (.document (chain 64)) target n = .threw :=
  C25_deep_document_throws host 64 (Nat.le_refl _) target n

/-! ## C44 -/

/-- An enumeration with names, or a pointer to one. -/
def Named : Ty → Prop
  | .prim (.enumStr _) => True
  | .uptr t => Named t
  | .sptr t => Named t
  | _ => False

theorem named_open (env : Env) : ∀ (t : Ty) (target : Val) (n : Nat), Named t → ∃ table v, (openP env t target n).1 = .leaf (.enumStr table) v
  | .prim (.enumStr table), target, _, _ => ⟨table, target, rfl⟩
  | .uptr t, _, n, h => named_open env t (env.ctor t) n h
  | .sptr t, _, n, h => named_open env t (env.ctor t) (n + 1) h
  | .prim .null, _, _, h | .prim .bool, _, _, h | .prim (.int _), _, _, h | .prim (.flt _), _, _, h | .prim .str, _, _, h
  | .prim .bytes, _, _, h | .prim .time, _, _, h | .prim .date, _, _, h | .prim (.enumInt _), _, _, h
  | .vec _, _, _, h | .arr _ _, _, _, h | .set _, _, _, h | .map _ _, _, _, h | .dict _, _, _, h | .tuple _, _, _, h
  | .variant _, _, _, h | .cls _, _, _, h => h.elim

/-- The handler of an enumeration with names never leaves the stack. -/
theorem named_pval (env : Env) (host : Host) (j : Json) (K : List HClass) (n : Nat) (table : EnumConv.Table) (v w : Val) (n' : Nat) :
    pval env host j K (.leaf (.enumStr table) v) n ≠ .ok w n' := by
  have key : ∀ e, scalar env e K (.leaf (.enumStr table) v) n ≠ .ok w n' := by
    intro e
    simp only [scalar]
    cases leafParse env (.enumStr table) e <;> simp [Prim.stays]
  cases j with
  | null => rw [pval]; exact key _
  | bool b => rw [pval]; exact key _
  | num x => rw [pval]; exact key _
  | str s => rw [pval]; exact key _
  | arr js => rw [pval]; simp [arrayFn]
  | obj ms => rw [pval]; simp [objectFn]

theorem named_child {α : Type} (env : Env) (host : Host) (j : Json) (K : List HClass) (c : HClass) (t : Ty) (ht : Named t) (target : Val) (n : Nat)
    (outer : Val → Val) (k : Val → Nat → LRes α) (a : α) (n' : Nat) :
    withChild env host K c t target n outer (pval env host j) k ≠ .ok a n' := by
  unfold withChild
  split
  · obtain ⟨table, v, hv⟩ := named_open env t target n ht
    generalize openP env t target n = o at hv ⊢
    obtain ⟨h, w, m⟩ := o
    simp only at hv ⊢
    subst hv
    cases hp : pval env host j K (.leaf (.enumStr table) v) m with
    | ok w n'' => exact absurd hp (named_pval env host j K m table v w n'')
    | _ => simp
  · simp

theorem named_direct (t : Ty) (h : Named t) : direct t = none := by
  cases t with
  | prim p => cases p <;> first | rfl | exact h.elim
  | _ => rfl

theorem whole_ok {α : Type} {mk : α → Val} {r : LRes α} {v : Val} {n : Nat} (h : r.whole mk = .ok v n) : ∃ a, r = .ok a n ∧ mk a = v := by
  cases r <;> simp only [LRes.whole, PartRes.ok.injEq, reduceCtorEq] at h
  exact ⟨_, by rw [h.2], h.1⟩

theorem child_ok {α : Type} {env : Env} {host : Host} {K : List HClass} {c : HClass} {t : Ty} {target : Val} {n : Nat} {outer : Val → Val}
    {f : PFn} {k : Val → Nat → LRes α} {a : α} {n' : Nat} (h : withChild env host K c t target n outer f k = .ok a n') :
    ∃ v m, k v m = .ok a n' := by
  unfold withChild at h
  split at h
  · generalize openP env t target n = o at h
    obtain ⟨hd, w, m⟩ := o
    simp only at h
    split at h <;> first | exact ⟨_, _, h⟩ | cases h
  · cases h

theorem loopObj_bad (env : Env) (host : Host) (K : List HClass) (c : Nat) (ms : List (Str × Json)) (k : Str) (j : Json) (hm : (k, j) ∈ ms)
    (hbad : selectMember env host c k = .reject ∨ ∃ i m, selectMember env host c k = .member i ∧ (env.members c)[i]? = some m ∧ Named m.ty)
    (vs : List Val) (n : Nat) (us : List Val) (n' : Nat) : loopObj env host K c (pfields env host ms) vs n ≠ .ok us n' := by
  induction ms generalizing vs n with
  | nil => cases hm
  | cons p ms ih =>
    obtain ⟨k', j'⟩ := p
    rw [pfields, loopObj]
    intro h
    rcases List.mem_cons.1 hm with he | hm
    · cases he
      rcases hbad with h1 | ⟨i, m, h1, h2, h3⟩
      · rw [h1] at h; cases h
      · rw [h1] at h
        simp only [h2] at h
        split at h <;> exact named_child env host j K _ m.ty h3 _ _ _ _ _ _ h
    · split at h
      · cases h
      · cases h
      · split at h
        · cases h
        · split at h <;> (obtain ⟨v, m, h'⟩ := child_ok h; exact ih hm _ _ h')

theorem loopFix_named (env : Env) (host : Host) (K : List HClass) (C : Ty) (ts : List Ty) (k : Nat) (t : Ty) (hk : ts[k]? = some t)
    (ht : Named t) (js : List Json) (i : Nat) (hi : i ≤ k) (vs : List Val) (n : Nat) (us : List Val) (n' : Nat) :
    loopFix env host K C ts (pitems env host js) i vs n ≠ .ok us n' := by
  induction js generalizing i vs n with
  | nil =>
    rw [pitems, loopFix]
    have : i < ts.length := by
      have := (List.getElem?_eq_some_iff.1 hk).1
      omega
    simp [List.getElem?_eq_getElem this]
  | cons j js ih =>
    rw [pitems, loopFix]
    intro h
    split at h
    · cases h
    · rename_i t' ht'
      split at h
      · by_cases he : i = k
        · subst he
          rw [hk] at ht'
          cases ht'
          exact named_child env host j _ _ _ ht _ _ _ _ _ _ h
        · obtain ⟨v, m, h'⟩ := child_ok h
          exact ih (i + 1) (by omega) _ _ h'
      · cases h

/-- `parse` has accepted: the value was read. -/
theorem accepted_ok {env : Env} {host : Host} {t : Ty} {j : Json} {target v : Val} {n : Nat}
    (h : parseBool env host t (.document j) target n = .accepted v) :
    (∃ w m, pval env host j [] (openP env t target n).1 (openP env t target n).2.2 = .ok w m ∧ (openP env t target n).2.1 w = v) ∨
      ∃ p w m, pval env host j [] (openP env t target n).1 (openP env t target n).2.2 = .stuck p w m ∧ (openP env t target n).2.1 w = v := by
  rw [parseBool_document] at h
  split at h
  · generalize openP env t target n = o at h ⊢
    obtain ⟨hd, w, m⟩ := o
    simp only at h ⊢
    split at h
    · rename_i v' m' hp
      cases h
      exact .inl ⟨_, _, hp, rfl⟩
    · rename_i p v' m' hp
      cases h
      exact .inr ⟨_, _, _, hp, rfl⟩
    all_goals cases h
  · cases h

theorem arrayFn_not_stuck (env : Env) (host : Host) (items : List (Event × PFn)) (K : List HClass) (h : Handler) (n : Nat) (p : Prim) (v : Val) (m : Nat) :
    arrayFn env host items K h n ≠ .stuck p v m := by
  have hw : ∀ {α : Type} (f : α → Val) (r : LRes α), r.whole f ≠ .stuck p v m := by
    intro α f r; cases r <;> simp [LRes.whole]
  cases h <;> simp only [arrayFn] <;> first | (simp; done) | (split <;> first | exact hw _ _ | simp)

theorem objectFn_not_stuck (env : Env) (host : Host) (fields : List (Str × PFn)) (K : List HClass) (h : Handler) (n : Nat) (p : Prim) (v : Val) (m : Nat) :
    objectFn env host fields K h n ≠ .stuck p v m := by
  have hw : ∀ {α : Type} (f : α → Val) (r : LRes α), r.whole f ≠ .stuck p v m := by
    intro α f r; cases r <;> simp [LRes.whole]
  cases h <;> simp only [objectFn] <;> first | (simp; done) | (split <;> first | exact hw _ _ | simp)

/-- An accepted array. -/
theorem accepted_arr {env : Env} {host : Host} {t : Ty} {js : List Json} {target v : Val} {n : Nat}
    (h : parseBool env host t (.document (.arr js)) target n = .accepted v) :
    ∃ w m, arrayFn env host (pitems env host js) [] (openP env t target n).1 (openP env t target n).2.2 = .ok w m ∧ (openP env t target n).2.1 w = v := by
  rcases accepted_ok h with ⟨w, m, hw, he⟩ | ⟨p, w, m, hw, -⟩
  · rw [pval] at hw; exact ⟨w, m, hw, he⟩
  · rw [pval] at hw; exact absurd hw (arrayFn_not_stuck _ _ _ _ _ _ _ _ _)

/-- An accepted object. -/
theorem accepted_obj {env : Env} {host : Host} {t : Ty} {ms : List (Str × Json)} {target v : Val} {n : Nat}
    (h : parseBool env host t (.document (.obj ms)) target n = .accepted v) :
    ∃ w m, objectFn env host (pfields env host ms) [] (openP env t target n).1 (openP env t target n).2.2 = .ok w m ∧ (openP env t target n).2.1 w = v := by
  rcases accepted_ok h with ⟨w, m, hw, he⟩ | ⟨p, w, m, hw, -⟩
  · rw [pval] at hw; exact ⟨w, m, hw, he⟩
  · rw [pval] at hw; exact absurd hw (objectFn_not_stuck _ _ _ _ _ _ _ _ _)

/-- **C44, negation, for all types.** No vector, set or map with an element of a named enumeration is ever
accepted unless it is empty; no document is accepted for an array or tuple with such a component; no object with
such a member is accepted for a class. This holds for every host, target and document. -/
theorem C44_nested_rejected (env : Env) (host : Host) (t : Ty) (ht : Named t) (target v : Val) (n : Nat) :
    (∀ j js, parseBool env host (.vec t) (.document (.arr (j :: js))) target n ≠ .accepted v) ∧
    (∀ j js, parseBool env host (.set t) (.document (.arr (j :: js))) target n ≠ .accepted v) ∧
    (∀ o p ms, parseBool env host (.map o t) (.document (.obj (p :: ms))) target n ≠ .accepted v) ∧
    (∀ k j, parseBool env host (.arr (k + 1) t) (.document j) target n ≠ .accepted v) ∧
    (∀ ts j, t ∈ ts → parseBool env host (.tuple ts) (.document j) target n ≠ .accepted v) ∧
    ∀ c m, TablesBuilt env host → m ∈ env.members c → ((env.members c).map (·.name)).Nodup → m.ty = t →
      ∀ ms, m.name ∈ ms.map (·.1) → parseBool env host (.cls c) (.document (.obj ms)) target n ≠ .accepted v := by
  have hfix : ∀ (C : Ty) (ts : List Ty) (vs : List Val), t ∈ ts → ∀ js m w m', arrayFn env host (pitems env host js) [] (.fixStart C ts vs) m ≠ .ok w m' := by
    intro C ts vs hm js m w m' h
    simp only [arrayFn] at h
    split at h
    · obtain ⟨a, ha, -⟩ := whole_ok h
      obtain ⟨k, hk⟩ := List.getElem?_of_mem hm
      exact loopFix_named env host _ _ _ k t hk ht _ 0 (Nat.zero_le _) _ _ _ _ ha
    · cases h
  have hother : ∀ (C : Ty) (ts : List Ty) (vs : List Val) (j : Json), (∀ js, j ≠ .arr js) → ∀ K m, pval env host j K (.fixStart C ts vs) m = .fail := by
    intro C ts vs j hj K m
    cases j <;> first | exact absurd rfl (hj _) | simp [pval, scalar, objectFn]
  refine ⟨?_, ?_, ?_, ?_, ?_, ?_⟩
  · intro j js h
    obtain ⟨w, m, hw, -⟩ := accepted_arr h
    simp only [openP, arrayFn] at hw
    split at hw
    · obtain ⟨a, ha, -⟩ := whole_ok hw
      rw [pitems, loopVec, named_direct t ht] at ha
      simp only at ha
      split at ha
      · exact named_child env host j _ _ t ht _ _ _ _ _ _ ha
      · cases ha
    · cases hw
  · intro j js h
    obtain ⟨w, m, hw, -⟩ := accepted_arr h
    simp only [openP, arrayFn] at hw
    split at hw
    · obtain ⟨a, ha, -⟩ := whole_ok hw
      rw [pitems, loopSet, named_direct t ht] at ha
      simp only at ha
      split at ha
      · exact named_child env host j _ _ t ht _ _ _ _ _ _ ha
      · cases ha
    · cases hw
  · intro o p ms h
    obtain ⟨w, m, hw, -⟩ := accepted_obj h
    simp only [openP, objectFn] at hw
    split at hw
    · obtain ⟨a, ha, -⟩ := whole_ok hw
      obtain ⟨k, j⟩ := p
      rw [pfields, loopMap] at ha
      exact named_child env host j _ _ t ht _ _ _ _ _ _ ha
    · cases hw
  · intro k j h
    cases j with
    | arr js =>
      obtain ⟨w, m, hw, -⟩ := accepted_arr h
      exact hfix _ _ _ (by simp) _ _ _ _ hw
    | _ => rcases accepted_ok h with ⟨w, m, hw, -⟩ | ⟨p, w, m, hw, -⟩ <;>
        (simp only [openP] at hw; rw [hother _ _ _ _ (by simp)] at hw; cases hw)
  · intro ts j hts h
    cases j with
    | arr js =>
      obtain ⟨w, m, hw, -⟩ := accepted_arr h
      exact hfix _ _ _ hts _ _ _ _ hw
    | _ => rcases accepted_ok h with ⟨w, m, hw, -⟩ | ⟨p, w, m, hw, -⟩ <;>
        (simp only [openP] at hw; rw [hother _ _ _ _ (by simp)] at hw; cases hw)
  · intro c m hb hm hn hty ms hk h
    obtain ⟨w, m', hw, -⟩ := accepted_obj h
    have hne : env.members c ≠ [] := List.ne_nil_of_mem hm
    simp only [openP, if_neg hne, objectFn] at hw
    split at hw
    · obtain ⟨a, ha, -⟩ := whole_ok hw
      obtain ⟨⟨k, j⟩, hp, rfl⟩ := List.mem_map.1 hk
      refine loopObj_bad env host _ c ms _ j hp (.inr ?_) _ _ _ _ ha
      rw [selects_of_build env host hb c hne]
      obtain ⟨i, hi⟩ := List.getElem?_of_mem hm
      have hat : memberAt (env.members c) m.name = some i := by
        unfold memberAt
        obtain ⟨hlt, hget⟩ := List.getElem?_eq_some_iff.1 hi
        rw [List.findIdx?_eq_some_iff_getElem]
        refine ⟨hlt, by simp [hget], fun x hx => ?_⟩
        simp only [beq_iff_eq]
        intro hxe
        have h1 : ((env.members c).map (·.name))[x]'(by simp; omega) = ((env.members c).map (·.name))[i]'(by simpa using hlt) := by
          simp [hxe, hget]
        have := (List.Nodup.getElem_inj_iff hn).1 h1
        omega
      exact ⟨i, m, by rw [hat], hi, hty ▸ ht⟩
    · cases hw

example (target v : Val) : parseBool Demo.env host (.vec tColor) (.document (.arr [.str (lit "red")])) target 0 ≠ .accepted v :=
  (C44_nested_rejected Demo.env host tColor trivial target v 0).1 _ _

example (target v : Val) : parseBool Demo.env host (.cls 5) (.document (.obj [(lit "flag", .bool true), (lit "color", .str (lit "red"))])) target 0 ≠
    .accepted v :=
  (C44_nested_rejected Demo.env host tColor trivial target v 0).2.2.2.2.2 5 ⟨lit "color", .required, tColor⟩ tables_built
    (by simp [Env.members, Demo.env, sample]) (by show (sample.members.map (·.name)).Nodup; decide +kernel) rfl _ (by simp)

/-- **C44, negation.** Whatever is written for a non-empty vector of enumerators with names is not accepted. -/
theorem C44_written_rejected (env : Env) (hfair : env.Fair) (host : Host) (table : EnumConv.Table) (x : Int) (vs : List Val) (H : Heap)
    (ht : HasTy env H (.seq (.prim (.int x) :: vs)) (.vec (.prim (.enumStr table)))) (hf : finiteAll vs = true) :
    ∃ doc, serializeToDocument env (.vec (.prim (.enumStr table))) (.seq (.prim (.int x) :: vs)) = some (some doc) ∧
      ∀ target n v, parseBool env host (.vec (.prim (.enumStr table))) (.document doc) target n ≠ .accepted v := by
  obtain ⟨new, doc, tr, h1, h2, -⟩ := serOk env hfair H _ _ [] [] [] ht (by simpa [finite, finiteAll] using hf)
  refine ⟨doc, by simp [serializeToDocument, h1], fun target n v => ?_⟩
  cases h2 with
  | vec h =>
    cases h with
    | cons h h' => exact (C44_nested_rejected env host (.prim (.enumStr table)) trivial target v n).1 _ _

example : ∃ doc, serializeToDocument Demo.env (.vec tColor) (.seq [.prim (.int 0), .prim (.int 2)]) = some (some doc) ∧
    ∀ target n v, parseBool Demo.env host (.vec tColor) (.document doc) target n ≠ .accepted v :=
  C44_written_rejected Demo.env fair host _ 0 [.prim (.int 2)] heap (by simp [HasTy, AllTy, PrimTy]) rfl

/-- **C44, partial.** An enumeration with names is parsed when it is the whole document: what was written for an
enumerator is read as this enumerator.

Missing: enumerations inside other types, for which the claim is false. -/
theorem C44_root_partial (env : Env) (host : Host) (table : EnumConv.Table) (hr : room host [] (.parser (.prim (.enumStr table))) = true)
    (hn : (table.map (·.2)).Nodup) (x : Int) (hx : x ∈ table.map (·.1)) (target : Val) (n : Nat) :
    ∃ doc, serializeToDocument env (.prim (.enumStr table)) (.prim (.int x)) = some (some doc) ∧
      parseBool env host (.prim (.enumStr table)) (.document doc) target n = .accepted (.prim (.int x)) := by
  refine ⟨.str (enumName table x), rfl, ?_⟩
  rw [parseBool_document, if_pos hr]
  simp only [openP, pval, scalar, leafParse, C18_enum_roundtrip table hn x hx]
  rfl

example (target : Val) : ∃ doc, serializeToDocument Demo.env tColor (.prim (.int 2)) = some (some doc) ∧
    parseBool Demo.env host tColor (.document doc) target 0 = .accepted (.prim (.int 2)) :=
  C44_root_partial Demo.env host _ (host_roomy _ _ (by simp)) (by decide +kernel) 2 (by decide +kernel) target 0

/-! ## C45 -/

/-- **C45, negation, for all types.** Vectors and sets of characters (`char`, `signed char`, `unsigned char`), of
enumerations without names, and of pointers to numbers are never accepted unless they are empty. -/
theorem C45_numbers_rejected (env : Env) (host : Host) (t : Ty) (ht : t.element = false) (j : Json) (js : List Json) (target v : Val) (n : Nat) :
    parseBool env host (.vec t) (.document (.arr (j :: js))) target n ≠ .accepted v ∧
      parseBool env host (.set t) (.document (.arr (j :: js))) target n ≠ .accepted v := by
  simp only [Ty.element, Bool.or_eq_false_iff, Bool.not_eq_false', Option.isSome_eq_false_iff, Option.isNone_iff_eq_none] at ht
  obtain ⟨hd, hn⟩ := ht
  have htok : ∀ (t : Ty) e, t.numeric = true → isToken t e = false := by
    intro t
    induction t using Ty.numeric.induct <;> intro e h <;> simp_all [Ty.numeric, isToken]
  constructor <;> intro h
  · obtain ⟨w, m, hw, -⟩ := accepted_arr h
    simp only [openP, arrayFn] at hw
    split at hw
    · obtain ⟨a, ha, -⟩ := whole_ok hw
      rw [pitems, loopVec, hd] at ha
      simp only [htok t _ hn] at ha
      cases ha
    · cases hw
  · obtain ⟨w, m, hw, -⟩ := accepted_arr h
    simp only [openP, arrayFn] at hw
    split at hw
    · obtain ⟨a, ha, -⟩ := whole_ok hw
      rw [pitems, loopSet, hd] at ha
      simp only [htok t _ hn] at ha
      cases ha
    · cases hw

/-- `signed char`. -/
def tChar : Ty := .prim (.int ⟨.w8, true⟩)

/-- A character is parsed, a vector of characters is not. -/
example (target v : Val) : parseBool Demo.env host tChar (.document (.num (.int 65))) target 0 = .accepted (.prim (.int 65)) ∧
    parseBool Demo.env host (.vec tChar) (.document (.arr [.num (.int 65)])) target 0 ≠ .accepted v :=
  ⟨by
    rw [C42_document_partial Demo.env host streamed streamable_classes tables_built 100 host_roomy tChar rfl _ (by decide) (by decide +kernel)]
    rfl, (C45_numbers_rejected Demo.env host tChar rfl (.num (.int 65)) [] target v 0).1⟩

/-- `std::vector<std::unique_ptr<int>>`. -/
example (target v : Val) : parseBool Demo.env host (.set (.uptr (.prim (.int i32)))) (.document (.arr [.num (.int 65)])) target 0 ≠ .accepted v :=
  (C45_numbers_rejected Demo.env host (.uptr (.prim (.int i32))) rfl (.num (.int 65)) [] target v 0).2

/-- The element parses by itself, into the value `v` with the addresses `n` to `n' - 1`. -/
def Parses (env : Env) (host : Host) (t : Ty) (j : Json) : Prop := ∀ n, ∃ v, parseBool env host t (.document j) (env.ctor t) n = .accepted v

/-- Events that start a value the type has a token for. -/
theorem pval_token (env : Env) (host : Host) (j : Json) (K : List HClass) : ∀ (t : Ty) (target : Val) (n : Nat), t.numeric = false →
    isToken t (first j) = false → pval env host j K (openP env t target n).1 (openP env t target n).2.2 = .fail
  | .prim p, target, n, hn, ht => by
    cases j <;> simp only [openP, pval, scalar, arrayFn, objectFn] <;> cases p <;>
      first | rfl | (simp [isToken, first] at ht; done) | simp [Ty.numeric] at hn
  | .vec t, target, n, hn, ht => by
    cases j <;> simp only [openP, pval, scalar, arrayFn, objectFn] <;> (simp [isToken, first] at ht)
  | .arr k t, target, n, hn, ht => by
    cases j <;> simp only [openP, pval, scalar, arrayFn, objectFn] <;> (simp [isToken, first] at ht)
  | .set t, target, n, hn, ht => by
    cases j <;> simp only [openP, pval, scalar, arrayFn, objectFn] <;> (simp [isToken, first] at ht)
  | .map o t, target, n, hn, ht => by
    cases j <;> simp only [openP, pval, scalar, arrayFn, objectFn] <;> (simp [isToken, first] at ht)
  | .dict t, target, n, hn, ht => by
    cases j <;> simp only [openP, pval, scalar, arrayFn, objectFn] <;> (simp [isToken, first] at ht)
  | .tuple ts, target, n, hn, ht => by
    cases j <;> simp only [openP, pval, scalar, arrayFn, objectFn] <;> (simp [isToken, first] at ht)
  | .variant ts, target, n, hn, ht => by
    cases j <;> simp only [openP, pval, scalar, arrayFn, objectFn]
  | .cls c, target, n, hn, ht => by
    by_cases hc : env.members c = []
    · cases j <;> simp only [openP, if_pos hc, pval, scalar, arrayFn, objectFn]
    · cases j <;> simp only [openP, if_neg hc, pval, scalar, arrayFn, objectFn] <;> (simp [isToken, first] at ht)
  | .uptr t, target, n, hn, ht => pval_token env host j K t (env.ctor t) n hn ht
  | .sptr t, target, n, hn, ht => pval_token env host j K t (env.ctor t) (n + 1) hn ht

theorem openP_named (env : Env) : ∀ (t : Ty) (target : Val) (n : Nat), ¬ Named t →
    ∀ p v, (openP env t target n).1 = .leaf p v → p.stays = false
  | .prim p, target, n, h, p', v, he => by
    simp only [openP, Handler.leaf.injEq] at he
    obtain ⟨rfl, -⟩ := he
    cases p <;> first | rfl | exact absurd trivial h
  | .uptr t, _, n, h, p', v, he => openP_named env t (env.ctor t) n h p' v he
  | .sptr t, _, n, h, p', v, he => openP_named env t (env.ctor t) (n + 1) h p' v he
  | .vec _, _, _, _, _, _, he | .arr _ _, _, _, _, _, _, he | .set _, _, _, _, _, _, he | .map _ _, _, _, _, _, _, he | .dict _, _, _, _, _, _, he
  | .tuple _, _, _, _, _, _, he | .variant _, _, _, _, _, _, he => by simp [openP] at he
  | .cls c, _, _, _, _, _, he => by
    simp only [openP] at he
    split at he <;> cases he

/-- An accepted document, unless the type is an enumeration with names: the handler is popped. -/
theorem parses_ok {env : Env} {host : Host} {t : Ty} {j : Json} {target v : Val} {n : Nat} (hn : ¬ Named t)
    (h : parseBool env host t (.document j) target n = .accepted v) :
    ∃ w m, pval env host j [] (openP env t target n).1 (openP env t target n).2.2 = .ok w m := by
  rcases accepted_ok h with ⟨w, m, hw, -⟩ | ⟨p, w, m, hw, -⟩
  · exact ⟨w, m, hw⟩
  · exfalso
    obtain ⟨h1, v', h2⟩ := pval_stuck env host j [] _ _ _ _ _ hw
    have := openP_named env t target n hn p v' h2
    simp [h1] at this

/-- **C45, partial.** For all element types that are neither enumerations with names nor numbers without a handler
of their own: when each element parses by itself, then the vector and the set of the elements parse.

Missing: the types left out, for which the claim is false. -/
theorem C45_elements_partial (env : Env) (host : Host) (d : Nat) (hroom : Roomy host d) (t : Ty) (he : t.element = true) (hn : ¬ Named t)
    (js : List Json) (hj : ∀ j ∈ js, Parses env host t j) (hd : (Json.arr js).depth ≤ d) (target : Val) (n : Nat) :
    (∃ v, parseBool env host (.vec t) (.document (.arr js)) target n = .accepted v) ∧
      ∃ v, parseBool env host (.set t) (.document (.arr js)) target n = .accepted v := by
  have hchild : ∀ {α : Type} (K : List HClass) (j : Json) (c : HClass) (n : Nat) (k : Val → Nat → LRes α), Parses env host t j → K.length + j.depth ≤ d →
      (∀ v m, ∃ a m', k v m = .ok a m') → ∃ a m', withChild env host K c t (env.ctor t) n id (pval env host j) k = .ok a m' := by
    intro α K j c n k hp hK hk
    obtain ⟨v, hv⟩ := hp n
    obtain ⟨w, m, hw⟩ := parses_ok hn hv
    unfold withChild
    rw [if_pos (hroom K c (by omega))]
    generalize openP env t (env.ctor t) n = o at hw ⊢
    obtain ⟨h, w', n'⟩ := o
    simp only at hw ⊢
    rw [(quiet env host d hroom j K [] h n' hK (by simp; omega)).1, hw]
    exact hk _ _
  have hleaf : ∀ p j, direct t = some p → Parses env host t j → ∃ pv, leafParse env p (first j) = .ok pv := by
    intro p j hp hj
    obtain ⟨v, hv⟩ := hj 0
    obtain ⟨w, m, hw⟩ := parses_ok hn hv
    rw [direct_eq t p hp] at hw
    have key : ∀ e, scalar env e [] (.leaf p (env.ctor (.prim p))) 0 = .ok w m → ∃ pv, leafParse env p e = .ok pv := by
      intro e hs
      simp only [scalar] at hs
      split at hs
      · cases hs
      · cases hs
      · exact ⟨_, by assumption⟩
    cases j <;> simp only [openP, pval, arrayFn, objectFn] at hw <;> first | exact key _ hw | cases hw
  have htok : ∀ j, direct t = none → Parses env host t j → isToken t (first j) = true := by
    intro j hd' hj
    obtain ⟨v, hv⟩ := hj 0
    obtain ⟨w, m, hw⟩ := parses_ok hn hv
    have hnum : t.numeric = false := by simpa [Ty.element, hd'] using he
    cases hi : isToken t (first j) with
    | true => rfl
    | false => rw [pval_token env host j [] t _ 0 hnum hi] at hw; cases hw
  have hvec : ∀ (js : List Json) (K : List HClass) (vs : List Val) (n : Nat), (∀ j ∈ js, Parses env host t j) → K.length + Json.depthAll js ≤ d →
      ∃ us m, loopVec env host K t (pitems env host js) vs n = .ok us m := by
    intro js
    induction js with
    | nil => intro K vs n _ _; exact ⟨_, _, rfl⟩
    | cons j js ih =>
      intro K vs n hj hK
      simp only [Json.depthAll] at hK
      have hm1 : j.depth ≤ Nat.max j.depth (Json.depthAll js) := Nat.le_max_left ..
      have hm2 : Json.depthAll js ≤ Nat.max j.depth (Json.depthAll js) := Nat.le_max_right ..
      have ih' := fun vs n => ih K vs n (fun j' h' => hj j' (by simp [h'])) (by omega)
      rw [pitems, loopVec]
      cases hdir : direct t with
      | some p =>
        obtain ⟨pv, hpv⟩ := hleaf p j hdir (hj j (by simp))
        simp only [hpv]
        exact ih' _ _
      | none =>
        simp only [htok j hdir (hj j (by simp)), if_true]
        exact hchild K j _ n _ (hj j (by simp)) (by omega) (fun v m => ih' _ _)
  have hset : ∀ (js : List Json) (K : List HClass) (st vs : List Val) (n : Nat), (∀ j ∈ js, Parses env host t j) → K.length + Json.depthAll js ≤ d →
      ∃ us m, loopSet env host K t (pitems env host js) st vs n = .ok us m := by
    intro js
    induction js with
    | nil => intro K st vs n _ _; exact ⟨_, _, rfl⟩
    | cons j js ih =>
      intro K st vs n hj hK
      simp only [Json.depthAll] at hK
      have hm1 : j.depth ≤ Nat.max j.depth (Json.depthAll js) := Nat.le_max_left ..
      have hm2 : Json.depthAll js ≤ Nat.max j.depth (Json.depthAll js) := Nat.le_max_right ..
      have ih' := fun st vs n => ih K st vs n (fun j' h' => hj j' (by simp [h'])) (by omega)
      rw [pitems, loopSet]
      cases hdir : direct t with
      | some p =>
        obtain ⟨pv, hpv⟩ := hleaf p j hdir (hj j (by simp))
        simp only [hpv]
        exact ih' _ _ _
      | none =>
        simp only [htok j hdir (hj j (by simp)), if_true]
        exact hchild K j _ n _ (hj j (by simp)) (by omega) (fun v m => ih' _ _ _)
  simp only [Json.depth] at hd
  constructor
  · rw [parseBool_document, if_pos (hroom [] _ (by simp))]
    obtain ⟨us, m, h⟩ := hvec js [.vecItems t] target.elements n hj (by simp only [List.length_cons, List.length_nil]; omega)
    simp only [openP, pval, arrayFn, if_pos (hroom [] (.vecItems t) (by simp)), h, LRes.whole]
    exact ⟨_, rfl⟩
  · rw [parseBool_document, if_pos (hroom [] _ (by simp))]
    obtain ⟨us, m, h⟩ := hset js [.setItems t] [] target.elements n hj (by simp only [List.length_cons, List.length_nil]; omega)
    simp only [openP, pval, arrayFn, if_pos (hroom [] (.setItems t) (by simp)), h, LRes.whole]
    exact ⟨_, rfl⟩

/-- Vectors of bags, which contain enumerations with names: not covered by C42, but by this. -/
example (target : Val) : ∃ v, parseBool Demo.env host (.vec (.cls 5)) (.document (.arr [.obj [(lit "flag", .bool true)], .obj []])) target 0 = .accepted v := by
  refine (C45_elements_partial Demo.env host 100 host_roomy (.cls 5) rfl id _ ?_ (by decide) target 0).1
  intro j hj n
  simp only [List.mem_cons, List.not_mem_nil, or_false] at hj
  rcases hj with rfl | rfl <;> exact ⟨_, rfl⟩

/-! ## C37 -/

/-- **C37 for the parser.** A class is not parsed from an object with a key that is not the name of a member,
whatever else the object contains. -/
theorem C37_parser_unknown_rejected (env : Env) (host : Host) (hb : TablesBuilt env host) (c : Nat) (ms : List (Str × Json)) (k : Str)
    (hk : k ∈ ms.map (·.1)) (hn : k ∉ (env.members c).map (·.name)) (target v : Val) (n : Nat) :
    parseBool env host (.cls c) (.document (.obj ms)) target n ≠ .accepted v := by
  intro h
  obtain ⟨w, m, hw, -⟩ := accepted_obj h
  by_cases hc : env.members c = []
  · simp only [openP, if_pos hc, objectFn] at hw
    cases hw
  · simp only [openP, if_neg hc, objectFn] at hw
    split at hw
    · obtain ⟨a, ha, -⟩ := whole_ok hw
      obtain ⟨⟨k', j⟩, hp, rfl⟩ := List.mem_map.1 hk
      refine loopObj_bad env host _ c ms _ j hp (.inl ?_) _ _ _ _ ha
      rw [selects_of_build env host hb c hc]
      have : memberAt (env.members c) k' = none := by
        unfold memberAt
        rw [List.findIdx?_eq_none_iff]
        intro m hm
        simp only [beq_eq_false_iff_ne, ne_eq]
        intro he
        exact hn (List.mem_map.2 ⟨m, hm, he⟩)
      simp only [this]
    · cases hw

/-- A misspelt key. -/
example (target v : Val) : parseBool Demo.env host (.cls 5) (.document (.obj [(lit "flag", .bool true), (lit "flagg", .bool true)])) target 0 ≠ .accepted v :=
  C37_parser_unknown_rejected Demo.env host tables_built 5 _ (lit "flagg") (by simp) (by show _ ∉ sample.members.map (·.name); decide +kernel) target v 0

/-! ## C39 -/

theorem loopFix_length (env : Env) (host : Host) (K : List HClass) (C : Ty) (ts : List Ty) (fs : List (Event × PFn)) (i : Nat) (hi : i ≤ ts.length)
    (vs : List Val) (n : Nat) (us : List Val) (n' : Nat) (h : loopFix env host K C ts fs i vs n = .ok us n') : fs.length + i = ts.length := by
  induction fs generalizing i vs n with
  | nil =>
    rw [loopFix] at h
    split at h
    · rename_i hn
      rw [List.getElem?_eq_none_iff] at hn
      simp only [List.length_nil]; omega
    · cases h
  | cons p fs ih =>
    obtain ⟨e, f⟩ := p
    rw [loopFix] at h
    split at h
    · cases h
    · rename_i t ht
      have hlt := (List.getElem?_eq_some_iff.1 ht).1
      split at h
      · obtain ⟨v, m, h'⟩ := child_ok h
        have := ih (i + 1) (by omega) _ _ h'
        simp only [List.length_cons]; omega
      · cases h

/-- **C39 for the parser.** An array or tuple type is parsed only from an array with as many elements as it has
components. -/
theorem C39_parser_exact_length (env : Env) (host : Host) (j : Json) (target v : Val) (n : Nat) :
    (∀ k t, parseBool env host (.arr k t) (.document j) target n = .accepted v → ∃ js, j = .arr js ∧ js.length = k) ∧
      ∀ ts, parseBool env host (.tuple ts) (.document j) target n = .accepted v → ∃ js, j = .arr js ∧ js.length = ts.length := by
  have key : ∀ (js : List Json) (C : Ty) (ts : List Ty) (vs : List Val) w m m',
      arrayFn env host (pitems env host js) [] (.fixStart C ts vs) m = .ok w m' → js.length = ts.length := by
    intro js C ts vs w m m' h
    simp only [arrayFn] at h
    split at h
    · obtain ⟨a, ha, -⟩ := whole_ok h
      have := loopFix_length env host _ _ _ _ 0 (Nat.zero_le _) _ _ _ _ ha
      simpa [pitems_eq] using this
    · cases h
  constructor
  · intro k t h
    cases j with
    | arr js =>
      obtain ⟨w, m, hw, -⟩ := accepted_arr h
      exact ⟨js, rfl, by simpa using key js _ _ _ _ _ _ hw⟩
    | _ => rcases accepted_ok h with ⟨w, m, hw, -⟩ | ⟨p, w, m, hw, -⟩ <;> cases hw
  · intro ts h
    cases j with
    | arr js =>
      obtain ⟨w, m, hw, -⟩ := accepted_arr h
      exact ⟨js, rfl, key js _ _ _ _ _ _ hw⟩
    | _ => rcases accepted_ok h with ⟨w, m, hw, -⟩ | ⟨p, w, m, hw, -⟩ <;> cases hw

example (target : Val) : parseBool Demo.env host (.tuple [.prim .bool, .prim .str]) (.document (.arr [.bool true, .str (lit "x")])) target 0 =
    .accepted (.tup [.prim (.bool true), .prim (.str (lit "x"))]) := by
  rw [C42_document_partial Demo.env host streamed streamable_classes tables_built 100 host_roomy (.tuple [.prim .bool, .prim .str]) ⟨rfl, rfl, trivial⟩ _ (by decide) (by decide)]
  cases target <;> rfl

end Verif.Props
