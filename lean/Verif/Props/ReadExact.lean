import Verif.ReadExact
import Verif.Props.ReadShared

/-!
# C32-C34, C36: the exact verdict of the readers for every document

The theorems named `…_partial` of `Verif.Props.Read` compare the verdict with conformance (`Fails`) and leave out the
documents with masked members. Here the documents that are refused are described for all of them.
-/

namespace Verif.Props
open Verif.Core Verif.Numeric Verif.Demo

theorem bool_judged (env : Env) (hu : env.Unshared) (t : Ty) (ht : t.unshared = true) (root : Json) (hc : Calm env root) (target : Val) (next : Nat) :
    (Refused env false t root ∧ ∃ v, deserializeBool env t root target next = some (false, v)) ∨
    (¬ Refused env false t root ∧ ∃ v, deserializeBool env t root target next = some (true, v)) := by
  rw [deserializeBool_pd env hu t ht]
  rcases judged env hu root t ht hc false with ⟨h1, h2⟩ | ⟨h1, h2⟩
  · obtain ⟨v, hv⟩ := (h2 target []).done
    exact .inl ⟨h1, v, by rw [hv]⟩
  · obtain ⟨v, hv⟩ := h2 target []
    exact .inr ⟨h1, v, by rw [hv]⟩

theorem throw_judged (env : Env) (hu : env.Unshared) (t : Ty) (ht : t.unshared = true) (root : Json) (hc : Calm env root) (next : Nat) :
    (Refused env true t root ∧ ∃ path e, deserializeThrow env t root next = .threw path e) ∨
    (¬ Refused env true t root ∧ ∃ v, deserializeThrow env t root next = .returned v) := by
  rw [deserializeThrow_pd env hu t ht]
  rcases judged env hu root t ht hc true with ⟨h1, h2⟩ | ⟨h1, h2⟩
  · have h := h2 (env.fresh t) []
    refine .inl ⟨h1, ?_⟩
    revert h
    cases pd env root true t (env.fresh t) [] with
    | ub => exact fun h => h.elim
    | threw s e => exact fun _ => ⟨_, _, rfl⟩
    | done ok v => rintro ⟨h, _⟩; cases h
  · obtain ⟨v, hv⟩ := h2 (env.fresh t) []
    exact .inr ⟨h1, v, by rw [hv]⟩

/-! ## Examples -/

theorem maskedPoint_refused : Refused plainEnv true (.cls 0) maskedPoint :=
  .member 0 _ ⟨lit "x", .required, tDbl⟩ 0 (.str (lit "text")) (by simp [Env.members, plainEnv, plainClasses, point]) rfl (.prim _ _ _ fun pv h => by cases h)

/-- `{"x": 2, "y": "text"}` -/
def lastBadPoint : Json := .obj [(lit "x", .num (.int 2)), (lit "y", .str (lit "text"))]

theorem lastBadPoint_calm : Calm plainEnv lastBadPoint := by
  simp only [lastBadPoint, Calm, CalmFields, CalmStr, and_true, true_and, ne_eq]
  decide +kernel

theorem lastBadPoint_refused : Refused plainEnv false (.cls 0) lastBadPoint :=
  .last 0 _ [⟨lit "x", .required, tDbl⟩] ⟨lit "y", .required, tDbl⟩ [] 1 (.str (lit "text")) rfl (by simp) rfl (.prim _ _ _ fun pv h => by cases h)

/-- `{"left": {"id": "one"}, "right": {"id": 2}}` -/
def maskedBoth : Json := .obj [(lit "left", .obj [(lit "id", .str (lit "one"))]), (lit "right", .obj [(lit "id", .num (.int 2))])]

theorem maskedBoth_noRef : maskedBoth.noRef := by
  simp only [maskedBoth, Json.noRef, Json.noRefFields, and_true, List.map_cons, List.map_nil]
  decide +kernel

theorem maskedBoth_calm : Calm Demo.env maskedBoth := by
  simp only [maskedBoth, Calm, CalmFields, CalmStr, and_true, ne_eq]
  decide +kernel

theorem maskedBoth_refused : Refused Demo.env.lower true (.cls 2) maskedBoth :=
  .member 2 _ ⟨lit "left", .required, .uptr (.cls 1)⟩ 0 (.obj [(lit "id", .str (lit "one"))]) (by rw [lower_both]; simp) rfl
    (.uptr _ _ _ (.member 1 _ ⟨lit "id", .required, tInt⟩ 0 (.str (lit "one")) (by rw [lower_item]; simp) rfl (.prim _ _ _ fun pv h => by cases h)))

/-! ## C32 -/

/-- **C32, the exact verdict.** The boolean variant answers `false` iff the document is refused: like
conformance, except that an object is judged by the last member that matters alone, at every depth; in all
other cases it answers `true`. No document is left out but those at which a clock overflows. -/
theorem C32_verdict (env : Env) (hu : env.Unshared) (t : Ty) (ht : t.unshared = true) (root : Json) (hc : Calm env root) (target : Val) (next : Nat) :
    ((∃ v, deserializeBool env t root target next = some (false, v)) ↔ Refused env false t root) ∧
    ((∃ v, deserializeBool env t root target next = some (true, v)) ↔ ¬ Refused env false t root) := by
  rcases bool_judged env hu t ht root hc target next with ⟨h1, v, hv⟩ | ⟨h1, v, hv⟩ <;> simp [h1, hv]

example (target : Val) (next : Nat) : ∃ v, deserializeBool plainEnv (.cls 0) lastBadPoint target next = some (false, v) :=
  (C32_verdict plainEnv plainEnv_unshared (.cls 0) rfl _ lastBadPoint_calm target next).1.2 lastBadPoint_refused

example : ¬ Refused plainEnv false (.cls 0) maskedPoint :=
  (C32_verdict plainEnv plainEnv_unshared (.cls 0) rfl _ maskedPoint_calm .absent 0).2.1 (C32_masked_accepted .absent 0).1.2

/-- **C32, the exact verdict for all types** on documents without references. -/
theorem C32_shared_verdict (env : Env) (t : Ty) (root : Json) (hn : root.noRef) (hc : Calm env root) (target : Val) (next : Nat) :
    ((∃ v, deserializeBool env t root target next = some (false, v)) ↔ Refused env.lower false t.lower root) ∧
    ((∃ v, deserializeBool env t root target next = some (true, v)) ↔ ¬ Refused env.lower false t.lower root) := by
  rw [bool_same env t root hn, bool_same env t root hn]
  exact C32_verdict env.lower (lower_env_unshared env) t.lower (lower_unshared t) root ((calm_lower env root).2 hc) target next

example (target : Val) (next : Nat) : (∃ v, deserializeBool Demo.env (.cls 2) maskedBoth target next = some (true, v)) ∧
    ¬ Refused Demo.env.lower false (.cls 2) maskedBoth :=
  have h : ∃ v, deserializeBool Demo.env (.cls 2) maskedBoth target next = some (true, v) := ⟨_, rfl⟩
  ⟨h, (C32_shared_verdict Demo.env (.cls 2) _ maskedBoth_noRef maskedBoth_calm target next).2.1 h⟩

/-! ## C33 -/

/-- **C33, the exact verdict.** The throwing variant throws iff the document is refused: like conformance, except
that the alternatives of variants are judged as the boolean variant does; in all other cases it returns a
value. -/
theorem C33_verdict (env : Env) (hu : env.Unshared) (t : Ty) (ht : t.unshared = true) (root : Json) (hc : Calm env root) (next : Nat) :
    ((∃ path e, deserializeThrow env t root next = .threw path e) ↔ Refused env true t root) ∧
    ((∃ v, deserializeThrow env t root next = .returned v) ↔ ¬ Refused env true t root) := by
  rcases throw_judged env hu t ht root hc next with ⟨h1, p, e, hv⟩ | ⟨h1, v, hv⟩ <;> simp [h1, hv]

example (next : Nat) : ∃ path e, deserializeThrow plainEnv (.cls 0) maskedPoint next = .threw path e :=
  (C33_verdict plainEnv plainEnv_unshared (.cls 0) rfl _ maskedPoint_calm next).1.2 maskedPoint_refused

/-- **C33, the exact verdict for all types** on documents without references. -/
theorem C33_shared_verdict (env : Env) (t : Ty) (root : Json) (hn : root.noRef) (hc : Calm env root) (next : Nat) :
    ((∃ path e, deserializeThrow env t root next = .threw path e) ↔ Refused env.lower true t.lower root) ∧
    ((∃ v, deserializeThrow env t root next = .returned v) ↔ ¬ Refused env.lower true t.lower root) := by
  obtain ⟨h1, h2⟩ := throw_same env t root hn next
  rw [h2]
  simp only [h1]
  exact C33_verdict env.lower (lower_env_unshared env) t.lower (lower_unshared t) root ((calm_lower env root).2 hc) next

example (next : Nat) : ∃ path e, deserializeThrow Demo.env (.cls 2) maskedBoth next = .threw path e :=
  (C33_shared_verdict Demo.env (.cls 2) _ maskedBoth_noRef maskedBoth_calm next).1.2 maskedBoth_refused

/-! ## C34 -/

/-- **C34, exactly when the variants disagree.** For all types, on documents without references: whatever the
boolean variant refuses, the throwing variant refuses; the variants disagree iff the document is refused by
the rules of the throwing variant and not by those of the boolean one, and then it is the throwing variant
that throws and the boolean one that accepts. -/
theorem C34_disagreement (env : Env) (t : Ty) (root : Json) (hn : root.noRef) (hc : Calm env root) (target : Val) (next : Nat) :
    ((∃ v, deserializeBool env t root target next = some (false, v)) → ∃ path e, deserializeThrow env t root next = .threw path e) ∧
    (((∃ path e, deserializeThrow env t root next = .threw path e) ∧ ∃ v, deserializeBool env t root target next = some (true, v)) ↔
      Refused env.lower true t.lower root ∧ ¬ Refused env.lower false t.lower root) ∧
    ((∃ v, deserializeThrow env t root next = .returned v) → ∃ v, deserializeBool env t root target next = some (true, v)) := by
  obtain ⟨h1, h2⟩ := C32_shared_verdict env t root hn hc target next
  obtain ⟨h3, h4⟩ := C33_shared_verdict env t root hn hc next
  rw [h1, h2, h3, h4]
  exact ⟨Refused.throws, Iff.rfl, mt Refused.throws⟩

example (target : Val) (next : Nat) : (∃ path e, deserializeThrow Demo.env (.cls 2) maskedBoth next = .threw path e) ∧
    ∃ v, deserializeBool Demo.env (.cls 2) maskedBoth target next = some (true, v) :=
  (C34_disagreement Demo.env (.cls 2) _ maskedBoth_noRef maskedBoth_calm target next).2.1.2 ⟨maskedBoth_refused,
    (C32_shared_verdict Demo.env (.cls 2) _ maskedBoth_noRef maskedBoth_calm target next).2.1 ⟨_, rfl⟩⟩

/-! ## C36 -/

/-- **C36, the alternative that is chosen.** For every document, in both variants: the variant holds the first
alternative that is not refused by the rules of the boolean reader, with the value that this alternative alone
is read as into a new object; reading fails iff there is none. -/
theorem C36_chosen (env : Env) (hu : env.Unshared) (ts : List Ty) (ht : ∀ t ∈ ts, t.unshared = true) (root : Json) (hc : Calm env root)
    (target : Val) (next : Nat) :
    (∀ w, deserializeBool env (.variant ts) root target next = some (true, w) ↔
      ∃ (i : Nat) (t : Ty) (v : Val), ts[i]? = some t ∧ (∀ (k : Nat) (t' : Ty), k < i → ts[k]? = some t' → Refused env false t' root) ∧
        deserializeBool env t root (env.fresh t) next = some (true, v) ∧ w = .alt i v) ∧
    (∀ w, deserializeThrow env (.variant ts) root next = .returned w ↔ deserializeBool env (.variant ts) root (env.fresh (.variant ts)) next = some (true, w)) ∧
    ((∃ w, deserializeBool env (.variant ts) root target next = some (false, w)) ↔ ∀ t ∈ ts, Refused env false t root) ∧
    ((∃ path e, deserializeThrow env (.variant ts) root next = .threw path e) ↔ ∀ t ∈ ts, Refused env false t root) := by
  have htv : (Ty.variant ts).unshared = true := (Ty.unshareds_iff ts).2 ht
  simp only [deserializeBool_pd env hu _ htv, deserializeThrow_pd env hu _ htv, pd_variant env hu _ _ _ root ts htv]
  rcases pAll_judged env root ts (fun t h => judged env hu root t (ht t h) hc false) with ⟨h1, h2⟩ | ⟨i, t, h1, h2, h3, h4⟩
  · obtain ⟨v, hv⟩ := h2 0 []
    simp only [hv, PRes.reject]
    refine ⟨fun w => ⟨by simp, ?_⟩, by simp, ⟨fun _ => h1, fun _ => ⟨_, rfl⟩⟩, ⟨fun _ => h1, fun _ => ⟨_, _, rfl⟩⟩⟩
    rintro ⟨i, t, v', hi, -, hr, -⟩
    have hm := List.mem_of_getElem? hi
    rcases bool_judged env hu t (ht t hm) root hc (env.fresh t) next with ⟨-, u, hu'⟩ | ⟨hn, -⟩
    · rw [hu'] at hr; cases hr
    · exact absurd (h1 t hm) hn
  · obtain ⟨v, hv1, hv⟩ := h4 0 []
    have hm := List.mem_of_getElem? h1
    have hb : deserializeBool env t root (env.fresh t) next = some (true, v) := by rw [deserializeBool_pd env hu t (ht t hm), hv1]
    simp only [hv, Nat.zero_add]
    refine ⟨fun w => ⟨fun h => ?_, ?_⟩, fun w => ⟨fun h => ?_, fun h => ?_⟩, ⟨by simp, fun h => absurd (h t hm) h2⟩, ⟨by simp, fun h => absurd (h t hm) h2⟩⟩
    · cases h
      exact ⟨i, t, v, h1, h3, hb, rfl⟩
    · rintro ⟨i', t', v', hi', hk, hr, rfl⟩
      have hm' := List.mem_of_getElem? hi'
      have hn' : ¬ Refused env false t' root := ((C32_verdict env hu t' (ht t' hm') root hc (env.fresh t') next).2.1 ⟨_, hr⟩)
      have : i' = i := by
        rcases Nat.lt_trichotomy i' i with h | h | h
        · exact absurd (h3 i' t' h hi') hn'
        · exact h
        · exact absurd (hk i t h h1) h2
      subst this
      rw [h1] at hi'
      cases hi'
      rw [hb] at hr
      cases hr
      rfl
    · cases h; rfl
    · cases h; rfl

example (target : Val) (next : Nat) : ∃ v, deserializeBool plainEnv (.variant [tInt, .cls 0, looseMap]) maskedPoint target next = some (true, .alt 1 v) := by
  obtain ⟨v, hv⟩ := (C32_masked_accepted (plainEnv.fresh (.cls 0)) next).1.2
  refine ⟨v, ((C36_chosen plainEnv plainEnv_unshared [tInt, .cls 0, looseMap] (by decide +kernel) _ maskedPoint_calm target next).1 _).2
    ⟨1, .cls 0, v, rfl, fun k t' hk ht => ?_, hv, rfl⟩⟩
  have : k = 0 := by omega
  subst this
  cases ht
  exact .prim _ _ _ fun pv h => by cases h

end Verif.Props
