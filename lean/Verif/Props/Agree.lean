import Verif.Agree
import Verif.Props.ParseBack

/-!
# C61, C56: the two readers compared
-/

namespace Verif.Props
open Verif.Core Verif.Numeric Verif.EnumConv Verif.Demo

/-- Parts of a streamable type are streamable. -/
theorem streamable_child {env : Env} {G : Nat → Prop} (hG : StreamableClasses env G) {t t' : Ty} {j j' : Json} (h : Streamable G t)
    (hc : Child env t j t' j') : Streamable G t' := by
  cases hc with
  | vec => exact h.2
  | arr => exact h
  | set => exact h.2
  | map => exact h
  | dict => exact ⟨rfl, h, trivial⟩
  | tuple ts _ i t' _ ht => exact (streamableAll_iff G ts).1 h t' (List.mem_of_getElem? ht)
  | variant => exact h.elim
  | cls c _ m _ _ hm => exact (hG c h).2 m hm
  | uptr => exact h

theorem streamable_part {env : Env} {G : Nat → Prop} (hG : StreamableClasses env G) {t t' : Ty} {j j' : Json} (h : Streamable G t)
    (hp : Part env t j t' j') : Streamable G t' := by
  induction hp with
  | self => exact h
  | child _ _ _ _ _ hc ih => exact streamable_child hG ih hc

theorem accepted_iff (m : Means Val) (v : Val) : verdictOf m = .accepted v ↔ ∃ n, m = .yes v n := by
  cases m with
  | ub => simp [verdictOf]
  | no => simp [verdictOf]
  | yes w n => simp [verdictOf]

/-- The parser accepts the documents that denote a value, and gives this value. -/
theorem parse_decodes (env : Env) (hu : env.Unshared) (hdist : env.DistinctNames) (hc : env.BlankCtor) (host : Host) (G : Nat → Prop)
    (hG : StreamableClasses env G) (hb : TablesBuilt env host) (d : Nat) (hroom : Roomy host d) (t : Ty) (hs : Streamable G t) (ht : t.unshared = true)
    (j : Json) (hdep : j.depth ≤ d) (hp : j.proper = true) (hcom : Common env t j) (target target' : Val) (hbl : Blank env t target) (n : Nat) (v : Val) :
    parseBool env host t (.document j) target n = .accepted v ↔ Decodes env t j target' v := by
  have ha := agrees env hu G hG hdist hc j t ⟨ht, hs⟩ hcom target target' n
  rw [C42_document_partial env host G hG hb d hroom t hs j hdep hp, accepted_iff]
  constructor
  · rintro ⟨n', h⟩
    exact ((ha v n' hbl).1 h).2
  · intro h
    exact ⟨n, (ha v n hbl).2 ⟨rfl, h⟩⟩

/-- **C61 (partial).** Both readers, in the variants that return a `bool`, accept the same documents and read the same
values: for documents in which objects have the members of their class, once each (`Common`), no failed member
is masked by a later one (`Unmasked`, see C32), and targets without previous contents.

Missing: the documents and targets excluded by the hypotheses, where the readers do differ (`C61_unknown_key`,
`C61_missing_member`, `C61_big_integer`, `C61_nul_key`, `C61_previous_contents`, `C56_readers_differ`, `C25_deep_document_throws`);
types with shared pointers, variants and those of C44 and C45. -/
theorem C61_same_result_partial (env : Env) (hu : env.Unshared) (hdist : env.DistinctNames) (hc : env.BlankCtor) (host : Host) (G : Nat → Prop)
    (hG : StreamableClasses env G) (hb : TablesBuilt env host) (d : Nat) (hroom : Roomy host d) (t : Ty) (hs : Streamable G t) (ht : t.unshared = true)
    (j : Json) (hdep : j.depth ≤ d) (hp : j.proper = true) (hcalm : Calm env j) (hun : Unmasked env t j) (hcom : Common env t j)
    (target target' : Val) (hbl : Blank env t target) (n n' : Nat) (v : Val) :
    parseBool env host t (.document j) target n = .accepted v ↔ deserializeBool env t j target' n' = some (true, v) := by
  rw [(C32_exact_partial env hu t ht j hcalm hun target' n').1 v]
  exact parse_decodes env hu hdist hc host G hG hb d hroom t hs ht j hdep hp hcom target target' hbl n v

/-- **C61 (partial).** The same for the variants that throw; here it does not matter in which order members fail. -/
theorem C61_same_returned_partial (env : Env) (hu : env.Unshared) (hdist : env.DistinctNames) (hc : env.BlankCtor) (host : Host) (G : Nat → Prop)
    (hG : StreamableClasses env G) (hb : TablesBuilt env host) (d : Nat) (hroom : Roomy host d) (t : Ty) (hs : Streamable G t) (ht : t.unshared = true)
    (j : Json) (hdep : j.depth ≤ d) (hp : j.proper = true) (hcalm : Calm env j) (hcom : Common env t j)
    (hbl : Blank env t (env.fresh t)) (n n' : Nat) (v : Val) :
    parseThrow env host t (.document j) n = .returned v ↔ deserializeThrow env t j n' = .returned v := by
  have hvar : VariantsUnmasked env t j := fun ts j' hpart => (streamable_part hG hs hpart).elim
  rw [(C33_exact_partial env hu t ht j hcalm hvar n').2 v, ← parse_decodes env hu hdist hc host G hG hb d hroom t hs ht j hdep hp hcom _ _ hbl n v]
  rw [parseThrow]
  cases parseBool env host t (.document j) (env.fresh t) n <;> simp

/-! ## Example -/

theorem Common.of {env : Env} {t : Ty} {j : Json}
    (ho : ∀ c fields, t = .cls c → j = .obj fields → (fields.map (·.1)).Nodup ∧ (∀ k ∈ fields.map (·.1), k ∈ (env.members c).map (·.name)) ∧
      ∀ m ∈ env.members c, m.kind ≠ .optional → m.name ∈ fields.map (·.1))
    (hm : ∀ o t' fields, t = .map o t' → j = .obj fields → (∀ k ∈ fields.map (·.1), 0 ∉ k) ∧ ((fields.map (·.1)).Nodup ∨ ∀ v, Blank env t' v))
    (hf : ∀ f x, t = .prim (.flt f) → j = .num x → floatMeaning f x ≠ none)
    (hc : ∀ t' j', Child env t j t' j' → Common env t' j') : Common env t j := by
  refine ⟨fun c fields hp => ?_, fun o t' fields hp => ?_, fun f x hp => ?_⟩
  · rcases Part.head hp with ⟨h1, h2⟩ | ⟨t1, j1, h1, h2⟩
    · exact ho c fields h1.symm h2.symm
    · exact (hc t1 j1 h1).objects c fields h2
  · rcases Part.head hp with ⟨h1, h2⟩ | ⟨t1, j1, h1, h2⟩
    · exact hm o t' fields h1.symm h2.symm
    · exact (hc t1 j1 h1).maps o t' fields h2
  · rcases Part.head hp with ⟨h1, h2⟩ | ⟨t1, j1, h1, h2⟩
    · exact hf f x h1.symm h2.symm
    · exact (hc t1 j1 h1).floats f x h2

theorem Common.int (env : Env) (i : IntTy) (j : Json) : Common env (.prim (.int i)) j :=
  Common.of (fun _ _ h => by cases h) (fun _ _ _ h => by cases h) (fun _ _ h => by cases h) (fun _ _ h => by cases h)

/-- `{"children": [...], "value": n}` with the children at some depth. -/
inductive TreeDoc : Json → Prop
  | node (x : Json) (js : List Json) : (∀ j ∈ js, TreeDoc j) → TreeDoc (.obj [(lit "children", .arr js), (lit "value", x)])

theorem treeDoc_common (j : Json) (h : TreeDoc j) : Common plainEnv (.cls 4) j := by
  induction h with
  | node x js _ ih =>
    have hmem : plainEnv.members 4 = tree.members := rfl
    refine Common.of ?_ (fun _ _ _ h => by cases h) (fun _ _ h => by cases h) ?_
    · intro c fields h1 h2
      cases h1
      cases h2
      rw [hmem]
      exact ⟨by simp only [List.map_cons, List.map_nil]; decide, by simp only [List.map_cons, List.map_nil]; decide,
        by simp only [List.map_cons, List.map_nil]; decide⟩
    · intro t' j' h
      cases h with
      | cls _ _ m i _ hm hf =>
        rw [hmem] at hm
        simp only [tree, List.mem_cons, List.not_mem_nil, or_false] at hm
        rcases hm with rfl | rfl
        · exact Common.int _ _ _
        · have hj : j' = .arr js := by
            have := lookup_findMember hf
            simpa [List.lookup_cons] using this.symm
          subst hj
          refine Common.of (fun _ _ h => by cases h) (fun _ _ _ h => by cases h) (fun _ _ h => by cases h) fun t' j' h => ?_
          cases h with
          | vec _ _ _ hj => exact ih j' hj

theorem plain_flat : Flat plainEnv := fun _ => rfl

theorem plain_blank_classes (c : Nat) : Blank plainEnv (.cls c) (.prim .null) := by
  apply blank_class _ plain_flat
  intro m hm hk
  match c with
  | 0 =>
    simp only [Env.members, plainEnv, plainClasses, point, List.mem_cons, List.not_mem_nil, or_false] at hm
    rcases hm with rfl | rfl <;> exact .prim _ _
  | 1 =>
    simp only [Env.members, plainEnv, plainClasses, item, List.mem_cons, List.not_mem_nil, or_false] at hm
    rcases hm with rfl | rfl | rfl <;> exact .prim _ _
  | 2 => exact tree_blank _ m hm
  | 3 => exact tree_blank _ m hm
  | 4 => exact tree_blank _ m hm
  | 5 =>
    simp only [Env.members, plainEnv, plainClasses, sample, List.mem_cons, List.not_mem_nil, or_false] at hm
    rcases hm with rfl | rfl | rfl | rfl | rfl | rfl | rfl | rfl | rfl | rfl | rfl
    · exact .prim _ _
    · exact .prim _ _
    · exact .prim _ _
    · exact .prim _ _
    · exact .prim _ _
    · exact .set _ _ rfl
    · exact .map _ _ _ rfl
    · exact .variant _ _
    · exact .uptr _ _
    · refine blank_tuple _ plain_flat _ fun t ht => ?_
      simp only [List.mem_cons, List.not_mem_nil, or_false] at ht
      rcases ht with rfl | rfl <;> exact .prim _ _
    · exact blank_arr _ plain_flat _ _ (.prim _ _)
  | n + 6 => exact tree_blank _ m hm

theorem plain_blank_ctor : plainEnv.BlankCtor := blank_all _ plain_flat plain_blank_classes

/-- `{"children": [{"children": [], "value": 2}], "value": x}` -/
def twoTrees (x : Json) : Json :=
  .obj [(lit "children", .arr [.obj [(lit "children", .arr []), (lit "value", .num (.int 2))]]), (lit "value", x)]

theorem twoTrees_doc (x : Json) : TreeDoc (twoTrees x) := by
  refine .node _ _ fun j hj => ?_
  simp only [List.mem_singleton] at hj
  subst hj
  exact .node _ _ (by simp)

example (n n' : Nat) (v : Val) : parseThrow plainEnv host (.cls 4) (.document (twoTrees (.num (.int 1)))) n = .returned v ↔
    deserializeThrow plainEnv (.cls 4) (twoTrees (.num (.int 1))) n' = .returned v :=
  C61_same_returned_partial plainEnv plainEnv_unshared plain_distinct plain_blank_ctor host streamed plain_streamable plain_built 100 host_roomy
    (.cls 4) (.inr (.inr rfl)) rfl _ (by decide +kernel) (by decide +kernel) (by simp [twoTrees, Calm, CalmFields, CalmAll]) (treeDoc_common _ (twoTrees_doc _))
    (plain_blank_ctor _) n n' v

/-- Not a tree: both readers reject it. -/
example (n n' : Nat) (v : Val) : parseThrow plainEnv host (.cls 4) (.document (twoTrees (.bool true))) n ≠ .returned v := by
  rw [ne_eq, C61_same_returned_partial plainEnv plainEnv_unshared plain_distinct plain_blank_ctor host streamed plain_streamable plain_built 100 host_roomy
    (.cls 4) (.inr (.inr rfl)) rfl _ (by decide +kernel) (by decide +kernel) (by simp [twoTrees, Calm, CalmFields, CalmAll]) (treeDoc_common _ (twoTrees_doc _))
    (plain_blank_ctor _) n n' v]
  have : deserializeThrow plainEnv (.cls 4) (twoTrees (.bool true)) n' = .threw (lit "/value") (.expectedInt ⟨.w32, true⟩) := rfl
  rw [this]
  simp

/-- `{"count": 5, "id": 1}` -/
def wholeItem : Json := .obj [(lit "count", .num (.int 5)), (lit "id", .num (.int 1))]

theorem wholeItem_decodes (target : Val) : Decodes plainEnv (.cls 1) wholeItem target (.obj [.prim (.int 1), .absent, .prim (.int 5)]) := by
  refine .cls 1 _ _ _ ?_
  refine .present _ ⟨lit "id", .required, tInt⟩ _ _ 1 (.num (.int 1)) _ _ rfl (by decide) (.prim _ _ _ _ (.int _ 1 (by decide))) ?_
  refine .none _ ⟨lit "note", .optional, tStr⟩ _ _ _ rfl rfl ?_
  exact .present _ ⟨lit "count", .default, tInt⟩ _ _ 0 (.num (.int 5)) _ _ rfl (by decide) (.prim _ _ _ _ (.int _ 5 (by decide))) (.nil _ _)

theorem wholeItem_unmasked : Unmasked plainEnv (.cls 1) wholeItem := by
  refine Unmasked.of (fun c fields h1 h2 => ?_) (fun t' j' h => ?_)
  · cases h1
    cases h2
    rintro ⟨m, hm, hb⟩
    exfalso
    refine exclusive plainEnv wholeItem (.cls 1) ?_ _ _ (wholeItem_decodes (.prim .null))
    rcases hb with ⟨i, j, h1, h2⟩ | ⟨h1, h2⟩
    · exact .member 1 _ m i j hm h1 h2
    · exact .missing 1 _ m hm h1 h2
  · cases h with
    | cls _ _ m i _ hm hf =>
      have : m = ⟨lit "id", .required, tInt⟩ ∨ m = ⟨lit "note", .optional, tStr⟩ ∨ m = ⟨lit "count", .default, tInt⟩ := by
        simpa [Env.members, plainEnv, plainClasses, item] using hm
      rcases this with rfl | rfl | rfl <;> exact Unmasked.prim plainEnv _ _

theorem Common.prim (env : Env) (p : Prim) (h : ∀ f, p ≠ .flt f) (j : Json) : Common env (.prim p) j :=
  Common.of (fun _ _ h => by cases h) (fun _ _ _ h => by cases h) (fun f _ h' => by cases h'; exact absurd rfl (h f)) (fun _ _ h => by cases h)

theorem wholeItem_common : Common plainEnv (.cls 1) wholeItem := by
  have hmem : plainEnv.members 1 = item.members := rfl
  refine Common.of ?_ (fun _ _ _ h => by cases h) (fun _ _ h => by cases h) ?_
  · intro c fields h1 h2
    cases h1
    cases h2
    rw [hmem]
    decide
  · intro t' j' h
    cases h with
    | cls _ _ m i _ hm hf =>
      rw [hmem] at hm
      simp only [item, List.mem_cons, List.not_mem_nil, or_false] at hm
      rcases hm with rfl | rfl | rfl <;> exact Common.prim _ _ (by simp) _

example (n n' : Nat) (v : Val) : parseBool plainEnv host (.cls 1) (.document wholeItem) (.obj []) n = .accepted v ↔
    deserializeBool plainEnv (.cls 1) wholeItem (.obj [.prim (.int 9)]) n' = some (true, v) :=
  C61_same_result_partial plainEnv plainEnv_unshared plain_distinct plain_blank_ctor host streamed plain_streamable plain_built 100 host_roomy
    (.cls 1) (.inr (.inl rfl)) rfl _ (by decide +kernel) (by decide +kernel) (by simp [wholeItem, Calm, CalmFields]) wholeItem_unmasked wholeItem_common
    (.obj []) _ (by
      have := plain_blank_classes 1
      cases this with
      | cls _ _ h1 h2 => exact .cls 1 _ h1 h2) n n' v

/-! ## Where the readers differ -/

/-- **C61, negation.** `{"id": 1, "extra": null}`: the parser rejects unknown keys, the DOM reader ignores them. -/
theorem C61_unknown_key : ∃ j v, (∀ target n, parseBool plainEnv host (.cls 1) (.document j) target n = .rejected) ∧
    deserializeThrow plainEnv (.cls 1) j 0 = .returned v := by
  refine ⟨.obj [(lit "id", .num (.int 1)), (lit "extra", .null)], .obj [.prim (.int 1), .absent, .prim .null], fun target n => ?_, rfl⟩
  rw [C42_document_partial plainEnv host streamed plain_streamable plain_built 100 host_roomy (.cls 1) (.inr (.inl rfl)) _ (by decide +kernel) (by decide +kernel)]
  rfl

/-- **C61, negation.** `{}` for a class with a required member: the parser accepts it, the DOM reader throws. -/
theorem C61_missing_member : ∃ j v path, parseThrow plainEnv host (.cls 1) (.document j) 0 = .returned v ∧
    deserializeThrow plainEnv (.cls 1) j 0 = .threw path (.missing (lit "id")) := by
  refine ⟨.obj [], .obj [.prim .null, .absent, .prim .null], _, ?_, rfl⟩
  rw [parseThrow, C42_document_partial plainEnv host streamed plain_streamable plain_built 100 host_roomy (.cls 1) (.inr (.inl rfl)) _ (by decide +kernel) (by decide +kernel)]
  rfl

/-- **C61, negation.** The integer `2^53`, a value of type `double`, is rejected by the parser and accepted by the DOM
reader. -/
theorem C61_big_integer : ∃ j v, (∀ target n, parseBool plainEnv host tDbl (.document j) target n = .rejected) ∧
    deserializeThrow plainEnv tDbl j 0 = .returned v := by
  refine ⟨.num (.int (2 ^ 53)), .prim (.flt (Flt.ofInt (2 ^ 53))), fun target n => ?_, rfl⟩
  rw [C42_document_partial plainEnv host streamed plain_streamable plain_built 100 host_roomy tDbl rfl _ (by decide +kernel) (by decide +kernel)]
  rfl

/-- **C61, negation.** A key with a NUL character: the parser keeps it, the DOM reader truncates it. -/
theorem C61_nul_key : ∃ j v w, v ≠ w ∧ parseThrow plainEnv host (.map false tInt) (.document j) 0 = .returned v ∧
    deserializeThrow plainEnv (.map false tInt) j 0 = .returned w := by
  refine ⟨.obj [([97, 0, 98], .num (.int 1))], .map [([97, 0, 98], .prim (.int 1))], .map [([97], .prim (.int 1))], by simp, ?_, rfl⟩
  rw [parseThrow, C42_document_partial plainEnv host streamed plain_streamable plain_built 100 host_roomy (.map false tInt) rfl _ (by decide +kernel) (by decide +kernel)]
  rfl

/-- **C61, negation.** A vector that is not empty: the parser appends, the DOM reader replaces. -/
theorem C61_previous_contents : ∃ j target v w, v ≠ w ∧ parseBool plainEnv host (.vec tInt) (.document j) target 0 = .accepted v ∧
    deserializeBool plainEnv (.vec tInt) j target 0 = some (true, w) := by
  refine ⟨.arr [.num (.int 1)], .seq [.prim (.int 7)], .seq [.prim (.int 7), .prim (.int 1)], .seq [.prim (.int 1)], by simp, ?_, rfl⟩
  rw [C42_document_partial plainEnv host streamed plain_streamable plain_built 100 host_roomy (.vec tInt) ⟨rfl, rfl⟩ _ (by decide +kernel) (by decide +kernel)]
  rfl

/-! ## C56 -/

/-- **C56 (partial).** For maps whose values are leaves, both readers treat repeated keys alike, whatever the number
and order of the keys; and also every document without repeated keys (C61).

Missing: classes (`C56_readers_differ`), maps whose values are added to. -/
theorem C56_map_partial (env : Env) (hu : env.Unshared) (hdist : env.DistinctNames) (hc : env.BlankCtor) (host : Host) (G : Nat → Prop)
    (hG : StreamableClasses env G) (hb : TablesBuilt env host) (d : Nat) (hroom : Roomy host (d + 1)) (o : Bool) (p : Prim) (hst : p.stays = false)
    (hfl : ∀ f, p ≠ .flt f) (ms : List (Str × Json)) (hleaf : ∀ q ∈ ms, q.2.depth = 0) (hz : ∀ k ∈ ms.map (·.1), 0 ∉ k) (hp : (Json.obj ms).proper = true)
    (hcalm : Calm env (.obj ms)) (target target' : Val) (hemp : target.entries = []) (n n' : Nat) (v : Val) :
    parseBool env host (.map o (.prim p)) (.document (.obj ms)) target n = .accepted v ↔
      deserializeBool env (.map o (.prim p)) (.obj ms) target' n' = some (true, v) := by
  refine C61_same_result_partial env hu hdist hc host G hG hb (d + 1) hroom (.map o (.prim p)) hst rfl (.obj ms) ?_ hp hcalm ?_ ?_ target target' (.map o _ _ hemp) n n' v
  · rw [Json.depth]
    have : ∀ ms : List (Str × Json), (∀ q ∈ ms, q.2.depth = 0) → Json.depthFields ms = 0 := by
      intro ms h
      induction ms with
      | nil => rfl
      | cons q ms ih =>
        obtain ⟨k, j⟩ := q
        have h0 : j.depth = 0 := h (k, j) (by simp)
        rw [Json.depthFields, ih fun q hq => h q (by simp [hq]), h0]
        rfl
    rw [this ms hleaf]
    omega
  · refine Unmasked.of (fun _ _ h => by cases h) fun t' j' h => ?_
    cases h with
    | map _ _ _ q _ => exact Unmasked.prim env p _
  · refine Common.of (fun _ _ h => by cases h) ?_ (fun _ _ h => by cases h) fun t' j' h => ?_
    · intro o' t' fields h1 h2
      cases h1
      cases h2
      exact ⟨hz, .inr fun v => .prim p v⟩
    · cases h with
      | map _ _ _ q _ => exact Common.prim env p hfl _

/-- `{"a": 1, "b": 2, "a": 3}` -/
example (n n' : Nat) (v : Val) : parseBool plainEnv host (.map false tInt) (.document (.obj [([97], .num (.int 1)), ([98], .num (.int 2)), ([97], .num (.int 3))])) (.map []) n = .accepted v ↔
    deserializeBool plainEnv (.map false tInt) (.obj [([97], .num (.int 1)), ([98], .num (.int 2)), ([97], .num (.int 3))]) (.map []) n' = some (true, v) :=
  C56_map_partial plainEnv plainEnv_unshared plain_distinct plain_blank_ctor host streamed plain_streamable plain_built 99 host_roomy false (.int int32) rfl (by simp)
    _ (by simp [Json.depth]) (by decide) (by decide +kernel) (by simp [Calm, CalmFields]) _ _ rfl n n' v

end Verif.Props
