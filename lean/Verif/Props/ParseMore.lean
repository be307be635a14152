import Verif.ParseMore
import Verif.Props.Parse
import Verif.Props.Read

/-!
# C38, C40, C55, C56: the streaming parser
-/

namespace Verif.Props
open Verif.Core Verif.Numeric Verif.EnumConv Verif.Demo

theorem plain_members (c : Nat) : plainEnv.members c = Demo.env.members c ∨ (plainEnv.members c).length = 2 := by
  match c with
  | 0 => exact .inl rfl
  | 1 => exact .inl rfl
  | 2 => exact .inr rfl
  | 3 => exact .inr rfl
  | 4 => exact .inl rfl
  | 5 => exact .inl rfl
  | n + 6 => exact .inl rfl

theorem plain_built : TablesBuilt plainEnv host := by
  intro c
  rcases plain_members c with h | h
  · rw [h]; exact tables_built c
  · exact ⟨by rw [h]; decide, 0, by decide, fun h' => by omega⟩

theorem plain_distinct : plainEnv.DistinctNames := by
  intro c
  rcases plain_members c with h | h
  · rw [h]; exact demo_distinct c
  · match c with
    | 0 => exact demo_distinct 0
    | 1 => exact demo_distinct 1
    | 2 => exact demo_distinct 4
    | 3 => exact demo_distinct 4
    | 4 => exact demo_distinct 4
    | 5 => exact demo_distinct 5
    | n + 6 => exact demo_distinct 4

theorem plain_streamable : StreamableClasses plainEnv streamed := by
  intro c hc
  have := streamable_classes c hc
  rcases hc with rfl | rfl | rfl <;> exact this

/-! ## C38 -/

/-- **C38, streaming parser.** Permuting the members of the objects of a document, at any depth, changes neither
whether the document is accepted nor the value read: for every target, and for every size of the handlers (so
also when the handler stack is nearly full). Types without shared pointers (whose addresses are not fixed). -/
theorem C38_parser_order (env : Env) (hu : env.Unshared) (host : Host) (hb : TablesBuilt env host) (t : Ty) (ht : t.unshared = true)
    (j j' : Json) (h : Reorder j j') (target v : Val) (n : Nat) :
    parseBool env host t (.document j) target n = .accepted v ↔ parseBool env host t (.document j') target n = .accepted v := by
  have key : ∀ j j', Reorder j j' → parseBool env host t (.document j) target n = .accepted v →
      parseBool env host t (.document j') target n = .accepted v := by
    intro j j' h ha
    have hr : room host [] (.parser t) = true := by
      rw [parseBool_document] at ha
      split at ha
      · assumption
      · cases ha
    rcases accepted_ok ha with ⟨w, m, h1, h2⟩ | ⟨p, w, m, h1, h2⟩
    · have h3 := reorder_extends env hu host hb j j' h [] _ _ _ _ (openP_unshared env t target n ht).1 h1
      rw [parseBool_document, if_pos hr]
      generalize openP env t target n = o at h2 h3 ⊢
      obtain ⟨hd, w', n'⟩ := o
      simp only at h2 h3 ⊢
      rw [h3]
      simp only [h2]
    · cases h with
      | same => exact ha
      | arr js js' => rw [pval] at h1; exact absurd h1 (arrayFn_not_stuck _ _ _ _ _ _ _ _ _)
      | obj ms ms' ms'' => rw [pval] at h1; exact absurd h1 (objectFn_not_stuck _ _ _ _ _ _ _ _ _)
  exact ⟨key j j' h, key j' j h.symm⟩

/-- `{"children": [{"value": 2}, {"value": 3, "children": []}], "value": 1}` -/
def treeDoc' : Json := .obj [(lit "children", .arr [.obj [(lit "value", .num (.int 2))],
  .obj [(lit "value", .num (.int 3)), (lit "children", .arr [])]]), (lit "value", .num (.int 1))]

theorem treeDoc_reorder : Reorder treeDoc treeDoc' := by
  refine .obj _ [(lit "children", .arr [.obj [(lit "value", .num (.int 2))],
    .obj [(lit "children", .arr []), (lit "value", .num (.int 3))]]), (lit "value", .num (.int 1))] _ (by decide) (.swap ..) ?_
  refine .cons _ _ _ _ _ (.arr _ _ (.cons _ _ _ _ (.same _) (.cons _ _ _ _ ?_ .nil))) (.cons _ _ _ _ _ (.same _) .nil)
  exact .obj _ _ _ (by decide) (.swap ..) (.cons _ _ _ _ _ (.same _) (.cons _ _ _ _ _ (.same _) .nil))

example (target v : Val) : parseBool plainEnv host (.cls 4) (.document treeDoc) target 0 = .accepted v ↔
    parseBool plainEnv host (.cls 4) (.document treeDoc') target 0 = .accepted v :=
  C38_parser_order plainEnv plainEnv_unshared host plain_built (.cls 4) rfl _ _ treeDoc_reorder target v 0

/-! ## C40 -/

/-- **C40, negation for vectors.** The elements of the document are appended to the ones that are already there. -/
theorem C40_parser_appends (env : Env) (host : Host) (t : Ty) (js : List Json) (vs us : List Val) (n : Nat)
    (h : parseBool env host (.vec t) (.document (.arr js)) (.seq []) n = .accepted (.seq us)) :
    parseBool env host (.vec t) (.document (.arr js)) (.seq vs) n = .accepted (.seq (vs ++ us)) := by
  obtain ⟨w, m, h1, h2⟩ := accepted_arr h
  have hr : room host [] (.parser (.vec t)) = true := by
    rw [parseBool_document] at h
    split at h
    · assumption
    · cases h
  rcases array_iff.1 h1 with ⟨t', vs', us', h3, h4, h5, h6⟩ | ⟨_, _, _, h3, -⟩ | ⟨_, _, _, _, h3, -⟩
  · simp only [openP, Handler.vecStart.injEq] at h3
    obtain ⟨rfl, rfl⟩ := h3
    subst h6
    simp only [openP, id, Val.seq.injEq] at h2
    subst h2
    have h7 := loopVec_append env host _ t _ vs _ _ _ _ h5
    rw [parseBool_document, if_pos hr]
    simp only [openP, Val.elements, List.append_nil] at h7
    simp only [openP, pval, arrayFn, if_pos h4, Val.elements, h7, LRes.whole, id]
  · simp [openP] at h3
  · simp [openP] at h3

example : parseBool Demo.env host (.vec tInt) (.document (.arr [.num (.int 2)])) (.seq [.prim (.int 1)]) 0 = .accepted (.seq [.prim (.int 1), .prim (.int 2)]) :=
  C40_parser_appends Demo.env host tInt [.num (.int 2)] [.prim (.int 1)] [.prim (.int 2)] 0 rfl

/-- **C40, negation.** The same document read into two targets. -/
theorem C40_parser_keeps_elements : ∃ j v w v' w', v ≠ w ∧
    parseBool Demo.env host (.vec tInt) (.document j) v 0 = .accepted v' ∧ parseBool Demo.env host (.vec tInt) (.document j) w 0 = .accepted w' ∧ v' ≠ w' :=
  ⟨.arr [.num (.int 2)], .seq [], .seq [.prim (.int 1)], .seq [.prim (.int 2)], .seq [.prim (.int 1), .prim (.int 2)], by simp, rfl, rfl, by simp⟩

/-- **C40, streaming parser.** When the document has every member of each class, and there are no vectors, sets,
maps or dictionaries outside of pointers and optional members, then what is accepted and the value read do not
depend on the target.

Missing: containers, which are added to, and members that are not in the document, which keep their value. -/
theorem C40_parser_target_partial (env : Env) (hd : env.DistinctNames) (host : Host) (hb : TablesBuilt env host) (t : Ty) (j : Json)
    (h : Overwritten env t j) (target target' v : Val) (n : Nat) :
    parseBool env host t (.document j) target n = .accepted v ↔ parseBool env host t (.document j) target' n = .accepted v := by
  have key : ∀ target target', parseBool env host t (.document j) target n = .accepted v →
      parseBool env host t (.document j) target' n = .accepted v := by
    intro target target' ha
    have hr : room host [] (.parser t) = true := by
      rw [parseBool_document] at ha
      split at ha
      · assumption
      · cases ha
    rcases accepted_ok ha with ⟨w, m, h1, h2⟩ | ⟨p, w, m, h1, h2⟩
    · have h3 := overwrites env hd host hb j t h target target' [] n _ _ h1
      rw [openP_target env t target target' n] at h2
      rw [parseBool_document, if_pos hr]
      generalize openP env t target' n = o at h2 h3 ⊢
      obtain ⟨hd, w', n'⟩ := o
      simp only at h2 h3 ⊢
      rw [h3]
      simp only [h2]
    · cases h with
      | prim q j =>
        have h3 : pval env host j [] (openP env (.prim q) target' n).1 (openP env (.prim q) target' n).2.2 = .stuck p w m := by
          cases j <;> exact h1
        rw [parseBool_document, if_pos hr]
        simp only [openP] at h2 h3 ⊢
        rw [h3]
        simp only [h2]
      | uptr t j => exact ha
      | sptr t j => exact ha
      | arr k t js => rw [pval] at h1; exact absurd h1 (arrayFn_not_stuck _ _ _ _ _ _ _ _ _)
      | tuple ts js => rw [pval] at h1; exact absurd h1 (arrayFn_not_stuck _ _ _ _ _ _ _ _ _)
      | cls c ms => rw [pval] at h1; exact absurd h1 (objectFn_not_stuck _ _ _ _ _ _ _ _ _)
  exact ⟨key _ _, key _ _⟩

/-- `{"id": 1, "note": "x", "count": 3}` -/
def fullItem : Json := .obj [(lit "id", .num (.int 1)), (lit "note", .str (lit "x")), (lit "count", .num (.int 3))]

example (target target' v : Val) : parseBool Demo.env host (.cls 1) (.document fullItem) target 0 = .accepted v ↔
    parseBool Demo.env host (.cls 1) (.document fullItem) target' 0 = .accepted v := by
  refine C40_parser_target_partial Demo.env demo_distinct host tables_built (.cls 1) fullItem (.cls 1 _ (by decide) ?_) target target' v 0
  intro p hp m hm _ _
  have : m = ⟨lit "id", .required, tInt⟩ ∨ m = ⟨lit "note", .optional, tStr⟩ ∨ m = ⟨lit "count", .default, tInt⟩ := by
    simpa [Env.members, Demo.env, item] using hm
  rcases this with rfl | rfl | rfl <;> exact .prim _ _

/-! ## C55 -/

/-- What is read for an element of a set is what is read from the element alone. -/
theorem readsAs_parse {env : Env} {host : Host} {K : List HClass} {t : Ty} {j : Json} {v : Val} (hr : room host [] (.parser t) = true)
    (h : ReadsAs env host K t j v) : ∃ n, parseBool env host t (.document j) (env.ctor t) n = .accepted v := by
  rcases h with ⟨p, pv, h1, h2, rfl⟩ | ⟨h1, n, u, m, h2, h3, rfl⟩
  · refine ⟨0, ?_⟩
    have ht := direct_eq t p h1
    subst ht
    have hs : p.stays = false := by
      cases p <;> first | rfl | (simp [direct] at h1)
    have key : ∀ K h n, scalar env (first j) K (.leaf p h) n = .ok (.prim pv) n := by
      intro K h n
      simp only [scalar, h2, hs]
      simp
    rw [parseBool_document, if_pos hr]
    cases j with
    | arr js => exfalso; revert h2; cases p <;> simp [leafParse, first]
    | obj ms => exfalso; revert h2; cases p <;> simp [leafParse, first]
    | null => simp only [openP, pval]; simp only [first] at key; simp only [key, id]
    | bool b => simp only [openP, pval]; simp only [first] at key; simp only [key, id]
    | num x => simp only [openP, pval]; simp only [first] at key; simp only [key, id]
    | str s => simp only [openP, pval]; simp only [first] at key; simp only [key, id]
  · refine ⟨n, ?_⟩
    have h4 := shrinks env host j K [] _ _ _ _ (Smaller.nil host K) h3
    rw [parseBool_document, if_pos hr]
    generalize openP env t (env.ctor t) n = o at h4 ⊢
    obtain ⟨hd, w', n'⟩ := o
    simp only at h4 ⊢
    rw [h4]

/-- **C55, streaming parser.** Whenever an array is accepted as a set, into a set `s₀`: the result is strictly
ascending (so without duplicates), each element is from `s₀` or was read from an element of the array, all
elements of `s₀` are kept, and each element read is in the result up to equivalence. -/
theorem C55_parser_set_contents (env : Env) (hless : StrictLess env.less) (host : Host) (t : Ty) (hr : room host [] (.parser t) = true) (js : List Json)
    (s₀ : List Val) (hs₀ : s₀.Pairwise (fun x y => env.less x y = true)) (n : Nat) (w : Val)
    (h : parseBool env host (.set t) (.document (.arr js)) (.set s₀) n = .accepted w) :
    ∃ (vs s : List Val), w = .set s ∧ vs.length = js.length ∧
      (∀ (i : Nat) (j : Json) (v : Val), js[i]? = some j → vs[i]? = some v → ∃ n, parseBool env host t (.document j) (env.ctor t) n = .accepted v) ∧
      s.Pairwise (fun x y => env.less x y = true) ∧ (∀ x ∈ s, x ∈ vs ∨ x ∈ s₀) ∧ (∀ x ∈ s₀, x ∈ s) ∧
      ∀ v ∈ vs, ∃ x ∈ s, env.less v x = false ∧ env.less x v = false := by
  obtain ⟨u, m, h1, h2⟩ := accepted_arr h
  rcases array_iff.1 h1 with ⟨_, _, _, h3, -⟩ | ⟨t', vs', us, h3, h4, h5, h6⟩ | ⟨_, _, _, _, h3, -⟩
  · simp [openP] at h3
  · simp only [openP, Handler.setStart.injEq] at h3
    obtain ⟨rfl, rfl⟩ := h3
    subst h6
    simp only [openP, id] at h2
    obtain ⟨ws, hl, he, hall⟩ := loopSet_values env host _ t js [] _ us _ m h5 (fun _ => rfl)
    simp only [Val.elements, List.nil_append] at he
    obtain ⟨k1, k2, k3, k4⟩ := setFold hless ws s₀ hs₀
    subst he
    exact ⟨ws, _, h2.symm, hl, fun i j v hj hv => readsAs_parse hr (hall i j v hj hv), k1, k2, k3, k4⟩
  · simp [openP] at h3

example (w : Val) (h : parseBool Demo.env host (.set tInt) (.document (.arr [num 3, num 1, num 3])) (.set [.prim (.int 2)]) 0 = .accepted w) :
    ∃ (vs s : List Val), w = .set s ∧ vs.length = 3 := by
  obtain ⟨vs, s, h1, h2, -⟩ := C55_parser_set_contents Demo.env demo_strict host tInt (host_roomy [] _ (by simp)) _ [.prim (.int 2)] (by simp) 0 w h
  exact ⟨vs, s, h1, h2⟩

example : parseBool Demo.env host (.set tInt) (.document (.arr [num 3, num 1, num 3])) (.set [.prim (.int 2)]) 0 =
    .accepted (.set [.prim (.int 1), .prim (.int 2), .prim (.int 3)]) := rfl

/-- **C55, streaming parser.** Two arrays whose elements are read as the same values, in any order and any number
of times, are read as the same set.

Missing: element types with shared pointers, and those whose sets are rejected (`C44_nested_rejected`,
`C45_numbers_rejected`). -/
theorem C55_parser_order_partial (env : Env) (hu : env.Unshared) (hless : StrictLess env.less) (host : Host) (d : Nat) (hroom : Roomy host d) (t : Ty)
    (ht : t.unshared = true) (he : t.element = true) (hn : ¬ Named t) (js js' : List Json) (vs vs' : List Val) (hl : vs.length = js.length)
    (hl' : vs'.length = js'.length) (hd : (Json.arr js).depth ≤ d) (hd' : (Json.arr js').depth ≤ d)
    (hv : ∀ (i : Nat) (j : Json) (v : Val), js[i]? = some j → vs[i]? = some v → parseBool env host t (.document j) (env.ctor t) 0 = .accepted v)
    (hv' : ∀ (i : Nat) (j : Json) (v : Val), js'[i]? = some j → vs'[i]? = some v → parseBool env host t (.document j) (env.ctor t) 0 = .accepted v)
    (hsame : ∀ v, v ∈ vs ↔ v ∈ vs') (htri : ∀ x ∈ vs, ∀ y ∈ vs, env.less x y = false → env.less y x = false → x = y) (n n' : Nat) :
    ∃ s, parseBool env host (.set t) (.document (.arr js)) (.set []) n = .accepted (.set s) ∧
      parseBool env host (.set t) (.document (.arr js')) (.set []) n' = .accepted (.set s) ∧ ∀ x, x ∈ s ↔ x ∈ vs := by
  have hmem : ∀ us : List Val, (∀ x, x ∈ us ↔ x ∈ vs) → ∀ x, x ∈ setOf env.less us ↔ x ∈ vs := by
    intro us hus x
    obtain ⟨-, h4, -, h5⟩ := setFold hless us [] List.Pairwise.nil
    constructor
    · intro hx
      exact (hus x).1 (by simpa using h4 x hx)
    · intro hx
      obtain ⟨y, hy, h6, h7⟩ := h5 x ((hus x).2 hx)
      have hy' : y ∈ vs := (hus y).1 (by simpa using h4 y hy)
      rw [htri x hx y hy' h6 h7]
      exact hy
  have h1 := hmem vs (fun _ => Iff.rfl)
  have h2 := hmem vs' (fun x => (hsame x).symm)
  have heq : setOf env.less vs = setOf env.less vs' :=
    sorted_unique hless _ _ (setFold hless vs [] List.Pairwise.nil).1 (setFold hless vs' [] List.Pairwise.nil).1 (fun x => by rw [h1, h2])
  have depthOf : ∀ (js : List Json) (i : Nat) (j : Json), js[i]? = some j → j.depth ≤ Json.depthAll js := by
    intro js
    induction js with
    | nil => intro i j h; simp at h
    | cons j0 js ih =>
      intro i j h
      have hm1 : j0.depth ≤ Nat.max j0.depth (Json.depthAll js) := Nat.le_max_left ..
      have hm2 : Json.depthAll js ≤ Nat.max j0.depth (Json.depthAll js) := Nat.le_max_right ..
      rw [Json.depthAll]
      cases i with
      | zero => simp at h; subst h; exact hm1
      | succ i => have := ih i j (by simpa using h); omega
  have key : ∀ (js : List Json) (vs : List Val) (n : Nat), vs.length = js.length → (Json.arr js).depth ≤ d →
      (∀ (i : Nat) (j : Json) (v : Val), js[i]? = some j → vs[i]? = some v → parseBool env host t (.document j) (env.ctor t) 0 = .accepted v) →
      parseBool env host (.set t) (.document (.arr js)) (.set []) n = .accepted (.set (setOf env.less vs)) := by
    intro js vs n hl hd hv
    rw [Json.depth] at hd
    have h := loopSet_exact env host [.setItems t] t js vs hl ?_ [] [] n (fun _ => rfl)
    · rw [parseBool_document, if_pos (hroom [] _ (by simp))]
      simp only [openP, pval, arrayFn, if_pos (hroom [] (.setItems t) (by simp)), Val.elements, h, LRes.whole, id, List.nil_append]
    · intro i j v hj hw
      have ha := hv i j v hj hw
      have hdj := depthOf js i j hj
      rcases accepted_ok ha with ⟨w, m, e1, e2⟩ | ⟨p, w, m, e1, -⟩
      · cases hdir : direct t with
        | some p =>
          have htp := direct_eq t p hdir
          subst htp
          left
          have key : ∀ e, scalar env e [] (.leaf p (env.ctor (.prim p))) 0 = .ok w m → ∃ pv, leafParse env p e = .ok pv ∧ w = .prim pv := by
            intro e hs
            simp only [scalar] at hs
            split at hs
            · cases hs
            · cases hs
            · split at hs
              · cases hs
              · cases hs; exact ⟨_, by assumption, rfl⟩
          have : ∃ pv, leafParse env p (first j) = .ok pv ∧ w = .prim pv := by
            cases j <;> simp only [openP, pval, arrayFn, objectFn] at e1 <;> first | exact key _ e1 | cases e1
          obtain ⟨pv, k1, rfl⟩ := this
          exact ⟨p, pv, rfl, k1, e2.symm⟩
        | none =>
          right
          refine ⟨rfl, ?_, hroom _ _ (by simp only [List.length_cons, List.length_nil]; omega), ?_⟩
          · have hnum : t.numeric = false := by simpa [Ty.element, hdir] using he
            cases hi : isToken t (first j) with
            | true => rfl
            | false => rw [pval_token env host j [] t _ 0 hnum hi] at e1; cases e1
          · obtain ⟨k1, k2⟩ := openP_unshared env t (env.ctor t) 0 ht
            obtain ⟨rfl, k3⟩ := steady env hu host j [] _ _ _ _ k1 e1
            intro n
            rw [k2 n]
            refine ⟨w, ?_, e2⟩
            rw [(quiet env host d hroom j [.setItems t] [] _ _ (by simp only [List.length_cons, List.length_nil]; omega) (by simp; omega)).1]
            exact k3 n
      · exfalso
        obtain ⟨k1, v', k2⟩ := pval_stuck env host j [] _ _ _ _ _ e1
        have := openP_named env t _ 0 hn p v' k2
        simp [k1] at this
  exact ⟨_, key js vs n hl hd hv, by rw [heq]; exact key js' vs' n' hl' hd' hv', h1⟩

example : ∃ s, parseBool plainEnv host (.set tInt) (.document (.arr [num 3, num 1, num 3, num 2])) (.set []) 0 = .accepted (.set s) ∧
    parseBool plainEnv host (.set tInt) (.document (.arr [num 1, num 2, num 3])) (.set []) 7 = .accepted (.set s) ∧
    ∀ x, x ∈ s ↔ x ∈ [Val.prim (.int 3), .prim (.int 1), .prim (.int 3), .prim (.int 2)] := by
  refine C55_parser_order_partial plainEnv plainEnv_unshared demo_strict host 100 host_roomy tInt rfl rfl id [num 3, num 1, num 3, num 2] [num 1, num 2, num 3]
    _ [.prim (.int 1), .prim (.int 2), .prim (.int 3)] rfl rfl (by decide) (by decide) ?_ ?_ ?_ ?_ _ _
  · intro i j v hj hv
    match i with
    | 0 | 1 | 2 | 3 => simp at hj hv; subst hj hv; rfl
    | i + 4 => simp at hj
  · intro i j v hj hv
    match i with
    | 0 | 1 | 2 => simp at hj hv; subst hj hv; rfl
    | i + 3 => simp at hj
  · intro v; simp; grind
  · intro x hx y hy h1 h2
    simp only [List.mem_cons, List.not_mem_nil, or_false] at hx hy
    rcases hx with rfl | rfl | rfl | rfl <;> rcases hy with rfl | rfl | rfl | rfl <;> simp_all [plainEnv, Demo.env, less]

/-! ## C56 -/

/-- **C56, negation.** `{"id": 1, "id": 2}` read as an item: `deserialize` takes the first value, `parse` the
last one. -/
theorem C56_readers_differ : ∃ j : Json,
    deserializeBool plainEnv (.cls 1) j (.prim .null) 0 = some (true, .obj [.prim (.int 1), .absent, .prim .null]) ∧
    parseBool plainEnv host (.cls 1) (.document j) (.obj [.prim .null, .absent, .prim .null]) 0 = .accepted (.obj [.prim (.int 2), .absent, .prim .null]) :=
  ⟨.obj [(lit "id", .num (.int 1)), (lit "id", .num (.int 2))], rfl, by
    rw [C42_document_partial plainEnv host streamed plain_streamable plain_built 100 host_roomy (.cls 1) (.inr (.inl rfl)) _
      (by decide +kernel) (by decide +kernel)]
    rfl⟩

end Verif.Props
