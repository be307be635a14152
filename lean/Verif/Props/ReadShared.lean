import Verif.ReadShared
import Verif.Props.Read

/-!
# C32-C36 for types with shared pointers

The theorems of `Verif.Props.Read` are about types without `std::shared_ptr`. Here the type is arbitrary and the
document has no member `"$ref"`. Conformance is conformance to the type with `std::unique_ptr` in place of
`std::shared_ptr` (`Ty.lower`, `Env.lower`).
-/

namespace Verif.Props
open Verif.Core Verif.Numeric Verif.Demo

theorem bool_same (env : Env) (t : Ty) (root : Json) (hn : root.noRef) (target : Val) (next : Nat) (ok : Bool) :
    (∃ v, deserializeBool env t root target next = some (ok, v)) ↔ ∃ v, deserializeBool env.lower t.lower root target next = some (ok, v) := by
  have h := sameVerdict env root t hn false target target [] root root [] [] ⟨[], next⟩ ⟨[], next⟩
  simp only [deserializeBool]
  generalize deser env root root false t target [] [] ⟨[], next⟩ = r at h ⊢
  generalize deser env.lower root root false t.lower target [] [] ⟨[], next⟩ = r' at h ⊢
  cases r <;> cases r' <;> simp_all [DRes.verdict]

theorem throw_same (env : Env) (t : Ty) (root : Json) (hn : root.noRef) (next : Nat) :
    (∀ path e, deserializeThrow env t root next = .threw path e ↔ deserializeThrow env.lower t.lower root next = .threw path e) ∧
    ((∃ v, deserializeThrow env t root next = .returned v) ↔ ∃ v, deserializeThrow env.lower t.lower root next = .returned v) := by
  have h := sameVerdict env root t hn true (env.fresh t) (env.lower.fresh t.lower) [] root root [] [] ⟨[], next⟩ ⟨[], next⟩
  simp only [deserializeThrow]
  generalize deser env root root true t (env.fresh t) [] [] ⟨[], next⟩ = r at h ⊢
  generalize deser env.lower root root true t.lower (env.lower.fresh t.lower) [] [] ⟨[], next⟩ = r' at h ⊢
  cases r <;> cases r' <;> simp_all [DRes.verdict]

/-! ## Examples: `struct Both { std::shared_ptr<Item> left; std::shared_ptr<Item> right; }` -/

/-- `{"left": {"id": 1}, "right": {"id": 2}}` -/
def goodBoth : Json := .obj [(lit "left", .obj [(lit "id", .num (.int 1))]), (lit "right", .obj [(lit "id", .num (.int 2))])]

/-- `{"left": {"id": 1}, "right": {"id": "two"}}` -/
def badBoth : Json := .obj [(lit "left", .obj [(lit "id", .num (.int 1))]), (lit "right", .obj [(lit "id", .str (lit "two"))])]

theorem goodBoth_noRef : goodBoth.noRef := by
  simp only [goodBoth, Json.noRef, Json.noRefFields, and_true, List.map_cons, List.map_nil]
  decide +kernel

theorem badBoth_noRef : badBoth.noRef := by
  simp only [badBoth, Json.noRef, Json.noRefFields, and_true, List.map_cons, List.map_nil]
  decide +kernel

theorem goodBoth_calm : Calm Demo.env goodBoth := by simp [goodBoth, Calm, CalmFields]

theorem badBoth_calm : Calm Demo.env badBoth := by
  simp only [badBoth, Calm, CalmFields, CalmStr, and_true, true_and, ne_eq]
  decide +kernel

/-- `Demo.env` with another order of set elements. -/
abbrev demoLess (less : Val → Val → Bool) : Env := { Demo.env with less := less }

theorem lower_both_less (less : Val → Val → Bool) : (demoLess less).lower.members 2 = [⟨lit "left", .required, .uptr (.cls 1)⟩, ⟨lit "right", .required, .uptr (.cls 1)⟩] := rfl

theorem lower_item_less (less : Val → Val → Bool) : (demoLess less).lower.members 1 = [⟨lit "id", .required, tInt⟩, ⟨lit "note", .optional, tStr⟩, ⟨lit "count", .default, tInt⟩] := rfl

/-- `{"id": j}` as an `Item` fails iff `j` is not an `int`. -/
theorem idItem_unmasked_less (less : Val → Val → Bool) (j : Json) : Unmasked (demoLess less).lower (.cls 1) (.obj [(lit "id", j)]) := by
  have hnote : findMember (lit "note") [(lit "id", j)] = none := rfl
  have hcount : findMember (lit "count") [(lit "id", j)] = none := rfl
  refine Unmasked.of (fun c fields h1 h2 => ?_) (fun t' j' h => ?_)
  · cases h1
    cases h2
    rintro ⟨m, hm, hb⟩
    rw [lower_item_less less] at hm
    simp only [List.mem_cons, List.not_mem_nil, or_false] at hm
    refine ⟨[], ⟨lit "id", .required, tInt⟩, [⟨lit "note", .optional, tStr⟩, ⟨lit "count", .default, tInt⟩], rfl, ?_, ?_⟩
    · rcases hm with rfl | rfl | rfl
      · exact hb
      · rcases hb with ⟨i, j', h, -⟩ | ⟨-, h⟩
        · rw [hnote] at h; cases h
        · cases h
      · rcases hb with ⟨i, j', h, -⟩ | ⟨-, h⟩
        · rw [hcount] at h; cases h
        · cases h
    · intro m hm
      simp only [List.mem_cons, List.not_mem_nil, or_false] at hm
      rcases hm with rfl | rfl
      · exact ⟨hnote, by decide⟩
      · exact ⟨hcount, by decide⟩
  · cases h with
    | cls _ _ m i _ hm hf =>
      rw [lower_item_less less] at hm
      simp only [List.mem_cons, List.not_mem_nil, or_false] at hm
      rcases hm with rfl | rfl | rfl <;> exact Unmasked.prim _ _ _

theorem idItem_good_less (less : Val → Val → Bool) (n : Int) (hn : int32.InRange n) : ¬ Fails (demoLess less).lower (.uptr (.cls 1)) (.obj [(lit "id", .num (.int n))]) := by
  intro h
  have : ∃ v, Decodes (demoLess less).lower (.uptr (.cls 1)) (.obj [(lit "id", .num (.int n))]) .nullptr v :=
    ⟨_, .uptr _ _ _ _ (.cls 1 _ _ _
      (.present _ ⟨lit "id", .required, tInt⟩ _ _ 0 (.num (.int n)) _ _ rfl (by decide) (.prim _ _ _ _ (.int _ n hn))
        (.none _ ⟨lit "note", .optional, tStr⟩ _ _ _ rfl rfl
          (.keep _ ⟨lit "count", .default, tInt⟩ _ _ _ rfl rfl (.nil _ _)))))⟩
  obtain ⟨v, hv⟩ := this
  exact exclusive _ _ _ h _ v hv

theorem idItem_bad_less (less : Val → Val → Bool) (s : Str) : Fails (demoLess less).lower (.uptr (.cls 1)) (.obj [(lit "id", .str s)]) :=
  .uptr _ _ (.member 1 _ ⟨lit "id", .required, tInt⟩ 0 (.str s) (by rw [lower_item_less less]; simp) rfl (.prim _ _ fun pv h => by cases h))

/-- Two members, of which the second decides if the first is good. -/
theorem both_unmasked_less (less : Val → Val → Bool) (j : Json) : Unmasked (demoLess less).lower (.cls 2)
    (.obj [(lit "left", .obj [(lit "id", .num (.int 1))]), (lit "right", .obj [(lit "id", j)])]) := by
  refine Unmasked.of (fun c fields h1 h2 => ?_) (fun t' j' h => ?_)
  · cases h1
    cases h2
    rintro ⟨m, hm, hb⟩
    rw [lower_both_less less] at hm
    simp only [List.mem_cons, List.not_mem_nil, or_false] at hm
    refine ⟨[⟨lit "left", .required, .uptr (.cls 1)⟩], ⟨lit "right", .required, .uptr (.cls 1)⟩, [], rfl, ?_, by simp⟩
    rcases hm with rfl | rfl
    · exfalso
      rcases hb with ⟨i, j', h, hf⟩ | ⟨h, -⟩
      · cases h
        exact idItem_good_less less 1 (by decide) hf
      · cases h
    · exact hb
  · have hu : ∀ j, Unmasked (demoLess less).lower (.uptr (.cls 1)) (.obj [(lit "id", j)]) := fun j =>
      Unmasked.of (fun _ _ h => by cases h) fun t' j' h => by
        cases h with
        | uptr => exact idItem_unmasked_less less j
    cases h with
    | cls _ _ m i _ hm hf =>
      rw [lower_both_less less] at hm
      simp only [List.mem_cons, List.not_mem_nil, or_false] at hm
      rcases hm with rfl | rfl
      · cases hf
        exact hu _
      · cases hf
        exact hu _

theorem lower_both : Demo.env.lower.members 2 = [⟨lit "left", .required, .uptr (.cls 1)⟩, ⟨lit "right", .required, .uptr (.cls 1)⟩] := rfl

theorem lower_item : Demo.env.lower.members 1 = [⟨lit "id", .required, tInt⟩, ⟨lit "note", .optional, tStr⟩, ⟨lit "count", .default, tInt⟩] := rfl

theorem idItem_unmasked (j : Json) : Unmasked Demo.env.lower (.cls 1) (.obj [(lit "id", j)]) := idItem_unmasked_less Demo.env.less j

theorem idItem_good (n : Int) (hn : int32.InRange n) : ¬ Fails Demo.env.lower (.uptr (.cls 1)) (.obj [(lit "id", .num (.int n))]) :=
  idItem_good_less Demo.env.less n hn

theorem idItem_bad (s : Str) : Fails Demo.env.lower (.uptr (.cls 1)) (.obj [(lit "id", .str s)]) := idItem_bad_less Demo.env.less s

/-- Two members, of which the second decides if the first is good. -/
theorem both_unmasked (j : Json) : Unmasked Demo.env.lower (.cls 2)
    (.obj [(lit "left", .obj [(lit "id", .num (.int 1))]), (lit "right", .obj [(lit "id", j)])]) := both_unmasked_less Demo.env.less j

theorem badBoth_fails : Fails Demo.env.lower (.cls 2) badBoth :=
  .member 2 _ ⟨lit "right", .required, .uptr (.cls 1)⟩ 1 (.obj [(lit "id", .str (lit "two"))]) (by rw [lower_both]; simp) rfl (idItem_bad _)

theorem goodBoth_conforms : ¬ Fails Demo.env.lower (.cls 2) goodBoth := by
  intro h
  cases h with
  | object _ _ _ h => exact h _ rfl
  | member _ _ m i j hm hf h =>
    rw [lower_both] at hm
    simp only [List.mem_cons, List.not_mem_nil, or_false] at hm
    rcases hm with rfl | rfl
    · cases hf
      exact idItem_good 1 (by decide) h
    · cases hf
      exact idItem_good 2 (by decide) h
  | missing _ _ m hm hf =>
    rw [lower_both] at hm
    simp only [List.mem_cons, List.not_mem_nil, or_false] at hm
    rcases hm with rfl | rfl <;> cases hf
  | array _ _ h => cases h

/-! ## C32 -/

/-- **C32 for all types, one direction.** A document without references that conforms to the type is accepted. -/
theorem C32_shared_conforming_accepted (env : Env) (t : Ty) (root : Json) (hn : root.noRef) (hc : Calm env root)
    (h : ¬ Fails env.lower t.lower root) (target : Val) (next : Nat) : ∃ v, deserializeBool env t root target next = some (true, v) := by
  rw [bool_same env t root hn]
  obtain ⟨w, hw⟩ := accepts env.lower (lower_env_unshared env) root t.lower (lower_unshared t) ((calm_lower env root).2 hc) h false target []
  exact ⟨w, by rw [deserializeBool_pd env.lower (lower_env_unshared env) t.lower (lower_unshared t), hw]⟩

example (target : Val) (next : Nat) : ∃ v, deserializeBool Demo.env (.cls 2) goodBoth target next = some (true, v) :=
  C32_shared_conforming_accepted Demo.env (.cls 2) goodBoth goodBoth_noRef goodBoth_calm goodBoth_conforms target next

/-- **C32 for all types.** On a document without references in which no object has a bad member in front of a
good one, the returned truth value is exact.

Missing: documents with references; masked members (`C32_masked_accepted`); time stamps at which the clock
overflows. The value is not described (see `C26_dom_roundtrip_partial`, `C46_sharing_partial`). -/
theorem C32_shared_partial (env : Env) (t : Ty) (root : Json) (hn : root.noRef) (hc : Calm env root) (hun : Unmasked env.lower t.lower root)
    (target : Val) (next : Nat) :
    ((∃ v, deserializeBool env t root target next = some (true, v)) ↔ ¬ Fails env.lower t.lower root) ∧
    ((∃ v, deserializeBool env t root target next = some (false, v)) ↔ Fails env.lower t.lower root) := by
  obtain ⟨h1, h2⟩ := C32_exact_partial env.lower (lower_env_unshared env) t.lower (lower_unshared t) root ((calm_lower env root).2 hc) hun target next
  refine ⟨⟨fun h hf => ?_, fun h => C32_shared_conforming_accepted env t root hn hc h target next⟩, (bool_same env t root hn target next false).trans h2⟩
  obtain ⟨v, hv⟩ := (bool_same env t root hn target next true).1 h
  exact exclusive _ _ _ hf _ _ ((h1 v).1 hv)

example (target : Val) (next : Nat) : ∃ v, deserializeBool Demo.env (.cls 2) badBoth target next = some (false, v) :=
  (C32_shared_partial Demo.env (.cls 2) badBoth badBoth_noRef badBoth_calm (both_unmasked _) target next).2.2 badBoth_fails

/-! ## C33 -/

/-- **C33 for all types, one direction.** On a document without references the throwing variant throws only if
the document does not conform. -/
theorem C33_shared_throws_only_if_bad (env : Env) (t : Ty) (root : Json) (hn : root.noRef) (hc : Calm env root) (next : Nat) (path : Str) (e : Err)
    (h : deserializeThrow env t root next = .threw path e) : Fails env.lower t.lower root :=
  C33_throws_only_if_bad env.lower (lower_env_unshared env) t.lower (lower_unshared t) root ((calm_lower env root).2 hc) next path e
    (((throw_same env t root hn next).1 path e).1 h)

example : Fails Demo.env.lower (.cls 2) badBoth :=
  C33_shared_throws_only_if_bad Demo.env (.cls 2) badBoth badBoth_noRef badBoth_calm 0 (lit "/right/id") (.expectedInt ⟨.w32, true⟩) rfl

/-- **C33 for all types.** On a document without references in which, inside variants, no object has a bad
member in front of a good one, the throwing variant throws iff the document does not conform, and otherwise
returns.

Missing: references (`C33_reference_not_thrown`), masked members inside variants (`C33_masked_in_variant`), time
stamps at which the clock overflows. -/
theorem C33_shared_partial (env : Env) (t : Ty) (root : Json) (hn : root.noRef) (hc : Calm env root)
    (hun : VariantsUnmasked env.lower t.lower root) (next : Nat) :
    ((∃ path e, deserializeThrow env t root next = .threw path e) ↔ Fails env.lower t.lower root) ∧
    ((∃ v, deserializeThrow env t root next = .returned v) ↔ ¬ Fails env.lower t.lower root) := by
  obtain ⟨h1, h2⟩ := C33_exact_partial env.lower (lower_env_unshared env) t.lower (lower_unshared t) root ((calm_lower env root).2 hc) hun next
  obtain ⟨s1, s2⟩ := throw_same env t root hn next
  simp only [s1, s2]
  refine ⟨h1, fun ⟨v, hv⟩ hf => exclusive _ _ _ hf _ _ ((h2 v).1 hv), fun hf => ?_⟩
  rcases verdict env.lower (lower_env_unshared env) root t.lower (lower_unshared t) with hd | hf'
  · obtain ⟨v, hv⟩ := hd (env.lower.fresh t.lower)
    exact ⟨v, (h2 v).2 hv⟩
  · exact absurd hf' hf

example (next : Nat) : ∃ path e, deserializeThrow Demo.env (.cls 2) badBoth next = .threw path e :=
  (C33_shared_partial Demo.env (.cls 2) badBoth badBoth_noRef badBoth_calm (both_unmasked _).variants next).1.2 badBoth_fails

example (next : Nat) : ∃ v, deserializeThrow Demo.env (.cls 2) goodBoth next = .returned v :=
  (C33_shared_partial Demo.env (.cls 2) goodBoth goodBoth_noRef goodBoth_calm (both_unmasked _).variants next).2.2 goodBoth_conforms

/-! ## C34 -/

/-- **C34 for all types, one direction.** On a document without references, if the throwing variant returns a
value, the boolean variant accepts the document and leaves the same value, with the same addresses of shared
objects, in a fresh object. -/
theorem C34_shared_returned_accepted (env : Env) (t : Ty) (root : Json) (hn : root.noRef) (next : Nat) (v : Val)
    (h : deserializeThrow env t root next = .returned v) : deserializeBool env t root (env.fresh t) next = some (true, v) := by
  have hm := sameModes env root root t hn (env.fresh t) [] [] ⟨[], next⟩
  simp only [deserializeThrow] at h
  simp only [deserializeBool]
  cases hp : deser env root root true t (env.fresh t) [] [] ⟨[], next⟩ with
  | ub => rw [hp] at h; cases h
  | threw s e => rw [hp] at h; cases h
  | done ok w st =>
    rw [hp] at h
    cases h
    rw [(hm ok v st hp).2]

example : deserializeBool Demo.env (.cls 2) goodBoth (.prim .null) 40 =
    some (true, .obj [.sptr 40 (.obj [.prim (.int 1), .absent, .prim .null]), .sptr 41 (.obj [.prim (.int 2), .absent, .prim .null])]) :=
  C34_shared_returned_accepted Demo.env (.cls 2) goodBoth goodBoth_noRef 40 _ rfl

/-- **C34 for all types.** On a document without references in which no object has a bad member in front of a
good one, the two variants agree.

Missing: references (`C33_reference_not_thrown`), masked members (`C34_disagree_masked`), time stamps at which
the clock overflows. -/
theorem C34_shared_agree_partial (env : Env) (t : Ty) (root : Json) (hn : root.noRef) (hc : Calm env root)
    (hun : Unmasked env.lower t.lower root) (next : Nat) :
    ((∃ path e, deserializeThrow env t root next = .threw path e) ↔ ∃ w, deserializeBool env t root (env.fresh t) next = some (false, w)) ∧
    ∀ v, deserializeThrow env t root next = .returned v ↔ deserializeBool env t root (env.fresh t) next = some (true, v) := by
  obtain ⟨h1, h2⟩ := C32_shared_partial env t root hn hc hun (env.fresh t) next
  obtain ⟨h3, h4⟩ := C33_shared_partial env t root hn hc hun.variants next
  refine ⟨h3.trans h2.symm, fun v => ⟨C34_shared_returned_accepted env t root hn next v, fun h => ?_⟩⟩
  obtain ⟨w, hw⟩ := h4.2 (h1.1 ⟨v, h⟩)
  have := C34_shared_returned_accepted env t root hn next w hw
  rw [h] at this
  cases this
  exact hw

example (next : Nat) : (∃ path e, deserializeThrow Demo.env (.cls 2) badBoth next = .threw path e) ↔
    ∃ w, deserializeBool Demo.env (.cls 2) badBoth (.prim .null) next = some (false, w) :=
  (C34_shared_agree_partial Demo.env (.cls 2) badBoth badBoth_noRef badBoth_calm (both_unmasked _) next).1

/-! ## C35 -/

/-- **C35 for all types.** As `C35_path_partial`, for documents without references.

Missing: references, the root itself (`C35_root_path`), keys that need escaping (`C35_unescaped`), empty keys. -/
theorem C35_shared_path_partial (env : Env) (t : Ty) (root : Json) (hn : root.noRef) (hc : Calm env root) (hT : Tidy root) (next : Nat)
    (path : Str) (e : Err) (h : deserializeThrow env t root next = .threw path e) :
    ∃ t' j', Part env.lower t.lower root t' j' ∧ LocalBad env.lower t' j' e ∧
      ((path = lit "/" ∧ j' = root) ∨
        ∃ toks q, pointerTokens env path = some toks ∧ toks ≠ [] ∧ pointerGet root toks = some q ∧ nodeAt root q = some j') :=
  C35_path_partial env.lower (lower_env_unshared env) t.lower (lower_unshared t) root ((calm_lower env root).2 hc) hT next path e
    (((throw_same env t root hn next).1 path e).1 h)

example : ∃ t' j', Part Demo.env.lower (.cls 2) badBoth t' j' ∧ LocalBad Demo.env.lower t' j' (.expectedInt ⟨.w32, true⟩) ∧
    ((lit "/right/id" = lit "/" ∧ j' = badBoth) ∨
      ∃ toks q, pointerTokens Demo.env (lit "/right/id") = some toks ∧ toks ≠ [] ∧ pointerGet badBoth toks = some q ∧ nodeAt badBoth q = some j') :=
  C35_shared_path_partial Demo.env (.cls 2) badBoth badBoth_noRef badBoth_calm
    (by simp only [badBoth, Tidy, TidyFields, and_true]; decide +kernel) 0 _ _ rfl

/-! ## C36 -/

theorem settled_shared (env : Env) (t : Ty) (j : Json) (hn : j.noRef) (hc : Calm env j) (hun : Unmasked env.lower t.lower j) (root : Json) (target : Val)
    (loc : Loc) (segs : List Seg) (st : DState) : ∃ ok v st', deser env root j false t target loc segs st = .done ok v st' ∧
      (ok = false ↔ Fails env.lower t.lower j) := by
  have hu := lower_env_unshared env
  have ht := lower_unshared t
  have hc' := (calm_lower env j).2 hc
  have h := sameVerdict env j t hn false target target segs root .null loc [] st ⟨[], 0⟩
  have hpd : (deser env.lower .null j false t.lower target [] segs ⟨[], 0⟩).verdict = (pd env.lower j false t.lower target segs).map fun _ => () := by
    simp only [pd]
    cases deser env.lower .null j false t.lower target [] segs ⟨[], 0⟩ <;> rfl
  rw [hpd] at h
  by_cases hf : Fails env.lower t.lower j
  · have hb := (follows env.lower hu j t.lower ht hc').2 false hf ⟨hun.variants, fun _ => hun⟩ target segs
    cases hp : pd env.lower j false t.lower target segs with
    | ub => rw [hp] at hb; exact hb.elim
    | threw s e => rw [hp] at hb; cases hb
    | done ok v =>
      rw [hp] at hb h
      obtain ⟨-, rfl⟩ := hb
      cases hd : deser env root j false t target loc segs st with
      | ub => rw [hd] at h; cases h
      | threw s e => rw [hd] at h; cases h
      | done ok v st' =>
        rw [hd] at h
        have : ok = false := by simpa [DRes.verdict, PRes.map] using h
        exact ⟨ok, v, st', rfl, by simp [this, hf]⟩
  · obtain ⟨w, hw⟩ := accepts env.lower hu j t.lower ht hc' hf false target segs
    rw [hw] at h
    cases hd : deser env root j false t target loc segs st with
    | ub => rw [hd] at h; cases h
    | threw s e => rw [hd] at h; cases h
    | done ok v st' =>
      rw [hd] at h
      have : ok = true := by simpa [DRes.verdict, PRes.map] using h
      exact ⟨ok, v, st', rfl, by simp [this, hf]⟩

theorem tryAll_first (env : Env) (j : Json) (hn : j.noRef) (hc : Calm env j) (root : Json) (ts : List Ty) (hun : ∀ t ∈ ts, Unmasked env.lower t.lower j) :
    ∀ i loc segs st, (∃ v st', tryAll env root j ts i loc segs st = .done false v st' ∧ ∀ t ∈ ts, Fails env.lower t.lower j) ∨
      ∃ k t v st', tryAll env root j ts i loc segs st = .done true (.alt (i + k) v) st' ∧ ts[k]? = some t ∧ ¬ Fails env.lower t.lower j ∧
        ∀ (k' : Nat) (t' : Ty), k' < k → ts[k']? = some t' → Fails env.lower t'.lower j := by
  induction ts with
  | nil => intro i loc segs st; exact .inl ⟨_, _, rfl, by simp⟩
  | cons t ts ih =>
    intro i loc segs st
    obtain ⟨ok, v, st', h1, h2⟩ := settled_shared env t j hn hc (hun t (by simp)) root (env.fresh t) loc segs st
    simp only [tryAll, h1]
    cases ok with
    | true =>
      exact .inr ⟨0, t, v, st', rfl, rfl, fun hf => Bool.noConfusion (h2.2 hf), fun k' t' hk => by omega⟩
    | false =>
      have hf := h2.1 rfl
      rcases ih (fun t ht => hun t (by simp [ht])) (i + 1) loc segs st' with ⟨v', st2, h3, h4⟩ | ⟨k, t', v', st2, h3, h4, h5, h6⟩
      · exact .inl ⟨v', st2, h3, List.forall_mem_cons.2 ⟨hf, h4⟩⟩
      · refine .inr ⟨k + 1, t', v', st2, ?_, h4, h5, ?_⟩
        · rw [show i + (k + 1) = i + 1 + k by omega]; exact h3
        · intro k' t2 hk ht2
          cases k' with
          | zero => cases ht2; exact hf
          | succ k' => exact h6 k' t2 (by omega) ht2

/-- **C36 for all types.** On a document without references, if in none of the alternatives an object has a bad
member in front of a good one, the variant holds the first alternative to which the document conforms, and
reading fails iff there is none.

Missing: references; masked members (`C36_masked_alternative`); time stamps at which the clock overflows. -/
theorem C36_shared_first_partial (env : Env) (ts : List Ty) (root : Json) (hn : root.noRef) (hc : Calm env root)
    (hun : ∀ t ∈ ts, Unmasked env.lower t.lower root) (target : Val) (next : Nat) :
    (∀ w, deserializeBool env (.variant ts) root target next = some (true, w) →
      ∃ (i : Nat) (t : Ty) (v : Val), w = .alt i v ∧ ts[i]? = some t ∧ ¬ Fails env.lower t.lower root ∧
        ∀ (k : Nat) (t' : Ty), k < i → ts[k]? = some t' → Fails env.lower t'.lower root) ∧
    ((∃ w, deserializeBool env (.variant ts) root target next = some (false, w)) ↔ ∀ t ∈ ts, Fails env.lower t.lower root) ∧
    ∃ r, deserializeBool env (.variant ts) root target next = some r := by
  simp only [deserializeBool, deser_variant]
  rcases tryAll_first env root hn hc root ts hun 0 [] [] ⟨[], next⟩ with ⟨v, st', h1, h2⟩ | ⟨k, t, v, st', h1, h2, h3, h4⟩
  · simp only [h1, DRes.reject]
    refine ⟨fun w h => by simp at h, ⟨fun _ => h2, fun _ => ⟨_, rfl⟩⟩, _, rfl⟩
  · simp only [h1]
    refine ⟨fun w h => ?_, ⟨fun h => ?_, fun h => absurd (h t (List.mem_of_getElem? h2)) h3⟩, _, rfl⟩
    · simp only [Option.some.injEq, Prod.mk.injEq, true_and] at h
      exact ⟨k, t, v, by rw [← h, Nat.zero_add], h2, h3, h4⟩
    · obtain ⟨w, h⟩ := h
      simp at h

theorem refItem_unmasked (j : Json) : ∀ t ∈ [Ty.prim .bool, .sptr (.cls 1), .cls 2], t ≠ .cls 2 →
    Unmasked Demo.env.lower t.lower (.obj [(lit "id", j)]) := by
  intro t ht h2
  simp only [List.mem_cons, List.not_mem_nil, or_false] at ht
  rcases ht with rfl | rfl | rfl
  · exact Unmasked.prim _ _ _
  · exact Unmasked.of (fun _ _ h => by cases h) fun t' j' h => by
      cases h with
      | uptr => exact idItem_unmasked j
  · exact absurd rfl h2

example (target : Val) (next : Nat) (w : Val)
    (h : deserializeBool Demo.env (.variant [.prim .bool, .sptr (.cls 1)]) (.obj [(lit "id", .num (.int 1))]) target next = some (true, w)) :
    ∃ (i : Nat) (t : Ty) (v : Val), w = .alt i v ∧ [Ty.prim .bool, .sptr (.cls 1)][i]? = some t ∧
      ¬ Fails Demo.env.lower t.lower (.obj [(lit "id", .num (.int 1))]) ∧
      ∀ (k : Nat) (t' : Ty), k < i → [Ty.prim .bool, .sptr (.cls 1)][k]? = some t' → Fails Demo.env.lower t'.lower (.obj [(lit "id", .num (.int 1))]) :=
  (C36_shared_first_partial Demo.env [.prim .bool, .sptr (.cls 1)] _ (by simp only [Json.noRef, Json.noRefFields, and_true]; decide +kernel)
    (by simp [Calm, CalmFields]) (fun t ht => refItem_unmasked _ t (by simp only [List.mem_cons, List.not_mem_nil, or_false] at ht ⊢; exact ht.elim .inl fun h => .inr (.inl h)) (by rintro rfl; simp at ht)) target next).1 w h

example : deserializeBool Demo.env (.variant [.prim .bool, .sptr (.cls 1)]) (.obj [(lit "id", .num (.int 1))]) .nullptr 40 =
    some (true, .alt 1 (.sptr 40 (.obj [.prim (.int 1), .absent, .prim .null]))) := rfl

end Verif.Props
