import Verif.ReadMore
import Verif.Demo
import Verif.Props.Containers

/-!
# C32-C41, C56: what reading a DOM does
-/

namespace Verif.Props
open Verif.Core Verif.Numeric Verif.Demo

/-! ## A program without shared objects, for the examples -/

/-- The program of the examples with its classes that have no shared objects. -/
def plainClasses (n : Nat) : Class :=
  match n with
  | 0 => point
  | 1 => item
  | 5 => sample
  | _ => tree

/-- The program with these classes. -/
def plainEnv : Env := { Demo.env with classes := plainClasses }

theorem plainEnv_unshared : plainEnv.Unshared := by
  intro c
  show ∀ m ∈ (plainClasses c).members, m.ty.unshared = true
  unfold plainClasses
  split <;> simp only [point, item, sample, tree, List.forall_mem_cons] <;> decide

theorem Part.head {env : Env} {t : Ty} {j : Json} {t2 : Ty} {j2 : Json} (h : Part env t j t2 j2) :
    (t2 = t ∧ j2 = j) ∨ ∃ t1 j1, Child env t j t1 j1 ∧ Part env t1 j1 t2 j2 := by
  induction h with
  | self => exact .inl ⟨rfl, rfl⟩
  | child t1 j1 t2 j2 _ hc ih =>
    rcases ih with ⟨rfl, rfl⟩ | ⟨t0, j0, h0, hp⟩
    · exact .inr ⟨t2, j2, hc, .self⟩
    · exact .inr ⟨t0, j0, h0, .child t1 j1 t2 j2 hp hc⟩

theorem Unmasked.of {env : Env} {t : Ty} {j : Json} (h : ∀ c fields, t = .cls c → j = .obj fields → LastDecides env c fields)
    (hc : ∀ t' j', Child env t j t' j' → Unmasked env t' j') : Unmasked env t j := by
  intro c fields hp
  rcases Part.head hp with ⟨h1, h2⟩ | ⟨t1, j1, h1, h2⟩
  · exact h c fields h1.symm h2.symm
  · exact hc t1 j1 h1 c fields h2

theorem Unmasked.prim (env : Env) (p : Prim) (j : Json) : Unmasked env (.prim p) j :=
  Unmasked.of (fun _ _ h => by cases h) (fun _ _ h => by cases h)

/-- `{"id": 1, "note": 5}`: not an `Item`, because the note is not a string. -/
def badNote : Json := .obj [(lit "id", .num (.int 1)), (lit "note", .num (.int 5))]

/-- `{"id": 1, "count": 5, "extra": null}`: an `Item`. -/
def goodItem : Json := .obj [(lit "id", .num (.int 1)), (lit "count", .num (.int 5)), (lit "extra", .null)]

/-- `{"x": "text", "y": 2}`: not a `Point`. -/
def maskedPoint : Json := .obj [(lit "x", .str (lit "text")), (lit "y", .num (.int 2))]

theorem maskedPoint_fails (env : Env) (h : env.members 0 = point.members) : Fails env (.cls 0) maskedPoint :=
  .member 0 _ ⟨lit "x", .required, tDbl⟩ 0 (.str (lit "text")) (by rw [h]; simp [point]) rfl (.prim _ _ fun pv h => by cases h)

theorem badNote_unmasked : Unmasked plainEnv (.cls 1) badNote := by
  refine Unmasked.of (fun c fields h1 h2 => ?_) (fun t' j' h => ?_)
  · cases h1
    cases h2
    intro _
    refine ⟨[⟨lit "id", .required, tInt⟩], ⟨lit "note", .optional, tStr⟩, [⟨lit "count", .default, tInt⟩], rfl, .inl ⟨1, .num (.int 5), rfl, ?_⟩, ?_⟩
    · exact .prim _ _ fun pv h => by cases h
    · intro m hm
      simp only [List.mem_singleton] at hm
      subst hm
      exact ⟨rfl, by decide⟩
  · cases h with
    | cls _ _ m i _ hm hf =>
      have : m = ⟨lit "id", .required, tInt⟩ ∨ m = ⟨lit "note", .optional, tStr⟩ ∨ m = ⟨lit "count", .default, tInt⟩ := by
        simpa [Env.members, plainEnv, plainClasses, item] using hm
      rcases this with rfl | rfl | rfl <;> exact Unmasked.prim plainEnv _ _

theorem goodItem_decodes (target : Val) : Decodes plainEnv (.cls 1) goodItem target (.obj [.prim (.int 1), .absent, .prim (.int 5)]) := by
  refine .cls 1 _ _ _ ?_
  refine .present _ ⟨lit "id", .required, tInt⟩ _ _ 0 (.num (.int 1)) _ _ rfl (by decide) (.prim _ _ _ _ (.int _ 1 (by decide))) ?_
  refine .none _ ⟨lit "note", .optional, tStr⟩ _ _ _ rfl rfl ?_
  exact .present _ ⟨lit "count", .default, tInt⟩ _ _ 1 (.num (.int 5)) _ _ rfl (by decide) (.prim _ _ _ _ (.int _ 5 (by decide))) (.nil _ _)

theorem goodItem_unmasked : Unmasked plainEnv (.cls 1) goodItem := by
  refine Unmasked.of (fun c fields h1 h2 => ?_) (fun t' j' h => ?_)
  · cases h1
    cases h2
    rintro ⟨m, hm, hb⟩
    exfalso
    refine exclusive plainEnv goodItem (.cls 1) ?_ _ _ (goodItem_decodes (.prim .null))
    rcases hb with ⟨i, j, h1, h2⟩ | ⟨h1, h2⟩
    · exact .member 1 _ m i j hm h1 h2
    · exact .missing 1 _ m hm h1 h2
  · cases h with
    | cls _ _ m i _ hm hf =>
      have : m = ⟨lit "id", .required, tInt⟩ ∨ m = ⟨lit "note", .optional, tStr⟩ ∨ m = ⟨lit "count", .default, tInt⟩ := by
        simpa [Env.members, plainEnv, plainClasses, item] using hm
      rcases this with rfl | rfl | rfl <;> exact Unmasked.prim plainEnv _ _

theorem badNote_calm : Calm plainEnv badNote := by simp [badNote, Calm, CalmFields]
theorem goodItem_calm : Calm plainEnv goodItem := by simp [goodItem, Calm, CalmFields]
theorem maskedPoint_calm : Calm plainEnv maskedPoint := by
  simp only [maskedPoint, Calm, CalmFields, CalmStr, and_true, ne_eq]
  decide +kernel

/-! ## C32 -/

/-- **C32, one direction.** A document that conforms to the type is accepted. -/
theorem C32_conforming_accepted (env : Env) (hu : env.Unshared) (t : Ty) (ht : t.unshared = true) (root : Json) (hc : Calm env root)
    (target v : Val) (h : Decodes env t root target v) (next : Nat) : ∃ w, deserializeBool env t root target next = some (true, w) := by
  obtain ⟨w, hw⟩ := accepts env hu root t ht hc (fun hf => exclusive env root t hf _ _ h) false target []
  exact ⟨w, by rw [deserializeBool_pd env hu t ht, hw]⟩

example (next : Nat) : ∃ w, deserializeBool plainEnv (.cls 1) goodItem (.obj [.prim (.int 9)]) next = some (true, w) :=
  C32_conforming_accepted plainEnv plainEnv_unshared (.cls 1) rfl _ goodItem_calm _ _ (goodItem_decodes _) next

/-- **C32, what the code does instead.** For a class, the verdict is that of the last member that matters
alone: if that member is present and conforms, the document is accepted, whatever the members before it
contain and whichever of them are missing. -/
theorem C32_last_member_decides (env : Env) (hu : env.Unshared) (c : Nat) (fields : List (Str × Json)) (hc : Calm env (.obj fields))
    (pre : List Member) (m : Member) (post : List Member) (hms : env.members c = pre ++ m :: post)
    (hpost : ∀ m' ∈ post, Irrelevant fields m') (i : Nat) (j : Json) (hm : findMember m.name fields = some (i, j)) (target : Val) (next : Nat) :
    (¬ Fails env m.ty j → ∃ w, deserializeBool env (.cls c) (.obj fields) target next = some (true, w)) ∧
    (Fails env m.ty j → Unmasked env m.ty j → ∃ w, deserializeBool env (.cls c) (.obj fields) target next = some (false, w)) := by
  have hcm : ∀ {n : Str} {i : Nat} {j : Json}, findMember n fields = some (i, j) → Calm env j := fun h =>
    Calm.field hc (lookup_mem (by rw [← findMember_value, h]; rfl))
  have hmem : ∀ m' ∈ pre ++ m :: post, m'.ty.unshared = true := by rw [← hms]; exact hu c
  have key : ∀ ok, (∀ target segs, ∃ v, pd env j false m.ty target segs = .done ok v) →
      ∃ w, deserializeBool env (.cls c) (.obj fields) target next = some (ok, w) := by
    intro ok h
    obtain ⟨vs, hvs⟩ := pMembers_last env fields [] pre m post
      (fun m' hm' i j hf tg segs => calm_returns env hu j m'.ty (hmem m' (by simp [hm'])) (hcm hf) tg segs) hpost ok (.inl ⟨i, j, hm, h⟩) target.members true
    refine ⟨.obj vs, ?_⟩
    rw [deserializeBool_pd env hu (.cls c) rfl, pd_cls env hu, hms, hvs]
    rfl
  have htm := hmem m (by simp)
  refine ⟨fun hn => key true fun tg segs => accepts env hu j m.ty htm (hcm hm) hn false tg segs, fun hf hun => key false fun tg segs => ?_⟩
  have := (follows env hu j m.ty htm (hcm hm)).2 false hf ⟨hun.variants, fun _ => hun⟩ tg segs
  cases hp : pd env j false m.ty tg segs with
  | ub => rw [hp] at this; exact this.elim
  | threw s e => rw [hp] at this; cases this
  | done ok v =>
    rw [hp] at this
    obtain ⟨-, rfl⟩ := this
    exact ⟨v, rfl⟩

example (target : Val) (next : Nat) : ∃ w, deserializeBool plainEnv (.cls 0) maskedPoint target next = some (true, w) :=
  (C32_last_member_decides plainEnv plainEnv_unshared 0 _ maskedPoint_calm [⟨lit "x", .required, tDbl⟩] ⟨lit "y", .required, tDbl⟩ [] rfl
    (by simp) 1 (.num (.int 2)) rfl target next).1
    (fun h => exclusive _ _ _ h (.prim .null) _ (.prim _ _ _ _ (.flt _ _)))

/-- **C32, negation.** `{"x": "text", "y": 2}` does not conform to `struct Point { double x; double y; }`, and
is accepted; neither does `{"y": 2}`, and it is accepted. -/
theorem C32_masked_accepted (target : Val) (next : Nat) :
    (Fails plainEnv (.cls 0) maskedPoint ∧ ∃ w, deserializeBool plainEnv (.cls 0) maskedPoint target next = some (true, w)) ∧
    Fails plainEnv (.cls 0) (.obj [(lit "y", .num (.int 2))]) ∧
      ∃ w, deserializeBool plainEnv (.cls 0) (.obj [(lit "y", .num (.int 2))]) target next = some (true, w) := by
  refine ⟨⟨maskedPoint_fails _ rfl, ?_⟩, .missing 0 _ ⟨lit "x", .required, tDbl⟩ (by simp [Env.members, plainEnv, plainClasses, point]) rfl rfl, ?_⟩
  · exact ⟨_, rfl⟩
  · exact ⟨_, rfl⟩

/-- **C32.** When no object of the document has a bad member in front of a good one, the returned truth value
is exact: `true` with the denoted value iff the document denotes it, and `false` iff it does not conform.

Missing: documents where the verdict of a member is overwritten by a later one (`C32_masked_accepted`); types
with shared pointers; time stamps at which the clock overflows. -/
theorem C32_exact_partial (env : Env) (hu : env.Unshared) (t : Ty) (ht : t.unshared = true) (root : Json) (hc : Calm env root)
    (hun : Unmasked env t root) (target : Val) (next : Nat) :
    (∀ v, deserializeBool env t root target next = some (true, v) ↔ Decodes env t root target v) ∧
    ((∃ v, deserializeBool env t root target next = some (false, v)) ↔ Fails env t root) := by
  have hfol := follows env hu root t ht hc
  have hbad : Fails env t root → ∃ v, deserializeBool env t root target next = some (false, v) := by
    intro hf
    have := hfol.2 false hf ⟨hun.variants, fun _ => hun⟩ target []
    rw [deserializeBool_pd env hu t ht]
    cases hp : pd env root false t target [] with
    | ub => rw [hp] at this; exact this.elim
    | threw s e => rw [hp] at this; cases this
    | done ok v =>
      rw [hp] at this
      obtain ⟨-, rfl⟩ := this
      exact ⟨v, rfl⟩
  have hgood : ∀ v, Decodes env t root target v → deserializeBool env t root target next = some (true, v) := by
    intro v hd
    rw [deserializeBool_pd env hu t ht, hfol.1 target v hd hun.variants false []]
  rcases verdict env hu root t ht with hd | hf
  · obtain ⟨v0, hv0⟩ := hd target
    have h0 := hgood v0 hv0
    refine ⟨fun v => ⟨fun h => ?_, hgood v⟩, fun ⟨v, h⟩ => ?_, hbad⟩
    · rw [h0] at h
      cases h
      exact hv0
    · rw [h0] at h
      cases h
  · obtain ⟨w, hw⟩ := hbad hf
    refine ⟨fun v => ⟨fun h => ?_, hgood v⟩, fun _ => hf, hbad⟩
    rw [hw] at h
    cases h

example (target : Val) (next : Nat) : ∃ v, deserializeBool plainEnv (.cls 1) badNote target next = some (false, v) :=
  (C32_exact_partial plainEnv plainEnv_unshared (.cls 1) rfl badNote badNote_calm badNote_unmasked target next).2.2
    (.member 1 _ ⟨lit "note", .optional, tStr⟩ 1 (.num (.int 5)) (by simp [Env.members, plainEnv, plainClasses, item]) rfl (.prim _ _ fun pv h => by cases h))

example (next : Nat) : deserializeBool plainEnv (.cls 1) goodItem (.obj [.prim (.int 9)]) next = some (true, .obj [.prim (.int 1), .absent, .prim (.int 5)]) :=
  ((C32_exact_partial plainEnv plainEnv_unshared (.cls 1) rfl goodItem goodItem_calm goodItem_unmasked _ next).1 _).2 (goodItem_decodes _)

/-! ## C33 -/

/-- **C33, one direction.** The throwing variant throws only for documents that do not conform. -/
theorem C33_throws_only_if_bad (env : Env) (hu : env.Unshared) (t : Ty) (ht : t.unshared = true) (root : Json) (hc : Calm env root)
    (next : Nat) (path : Str) (e : Err) (h : deserializeThrow env t root next = .threw path e) : Fails env t root := by
  refine Classical.byContradiction fun hn => ?_
  obtain ⟨w, hw⟩ := accepts env hu root t ht hc hn true (env.fresh t) []
  rw [deserializeThrow_pd env hu t ht, hw] at h
  cases h

example : Fails plainEnv (.cls 0) maskedPoint :=
  C33_throws_only_if_bad plainEnv plainEnv_unshared (.cls 0) rfl maskedPoint maskedPoint_calm 0 (lit "/x") .expectedNumber rfl

/-- **C33.** The throwing variant throws iff the document does not conform, and otherwise returns the denoted
value, provided that inside variants no object has a bad member in front of a good one (outside variants it
may).

Missing: masked members inside variants (`C33_masked_in_variant`), shared pointers
(`C33_reference_not_thrown`), time stamps at which the clock overflows. -/
theorem C33_exact_partial (env : Env) (hu : env.Unshared) (t : Ty) (ht : t.unshared = true) (root : Json) (hc : Calm env root)
    (hun : VariantsUnmasked env t root) (next : Nat) :
    ((∃ path e, deserializeThrow env t root next = .threw path e) ↔ Fails env t root) ∧
    ∀ v, deserializeThrow env t root next = .returned v ↔ Decodes env t root (env.fresh t) v := by
  have hfol := follows env hu root t ht hc
  have hgood : ∀ v, Decodes env t root (env.fresh t) v → deserializeThrow env t root next = .returned v := by
    intro v hd
    rw [deserializeThrow_pd env hu t ht, hfol.1 _ v hd hun true []]
  have hbad : Fails env t root → ∃ path e, deserializeThrow env t root next = .threw path e := by
    intro hf
    have := hfol.2 true hf ⟨hun, fun h => by cases h⟩ (env.fresh t) []
    rw [deserializeThrow_pd env hu t ht]
    cases hp : pd env root true t (env.fresh t) [] with
    | ub => rw [hp] at this; exact this.elim
    | threw s e => exact ⟨_, _, rfl⟩
    | done ok v => rw [hp] at this; cases this.1
  rcases verdict env hu root t ht with hd | hf
  · obtain ⟨v0, hv0⟩ := hd (env.fresh t)
    have h0 := hgood v0 hv0
    refine ⟨⟨fun ⟨p, e, h⟩ => ?_, hbad⟩, fun v => ⟨fun h => ?_, hgood v⟩⟩
    · rw [h0] at h
      cases h
    · rw [h0] at h
      cases h
      exact hv0
  · obtain ⟨p, e, hw⟩ := hbad hf
    refine ⟨⟨fun _ => hf, hbad⟩, fun v => ⟨fun h => ?_, hgood v⟩⟩
    rw [hw] at h
    cases h

/-- Types and classes without variants. -/
theorem maskedPoint_variants : VariantsUnmasked plainEnv (.cls 0) maskedPoint := by
  intro ts j' hp
  rcases Part.head hp with ⟨h, -⟩ | ⟨t1, j1, hc, hp⟩
  · cases h
  · cases hc with
    | cls _ _ m i _ hm hf =>
      have : m = ⟨lit "x", .required, tDbl⟩ ∨ m = ⟨lit "y", .required, tDbl⟩ := by simpa [Env.members, plainEnv, plainClasses, point] using hm
      rcases this with rfl | rfl
      all_goals
        rcases Part.head hp with ⟨h, -⟩ | ⟨t2, j2, hc, -⟩
        · cases h
        · cases hc

example (next : Nat) : ∃ path e, deserializeThrow plainEnv (.cls 0) maskedPoint next = .threw path e :=
  (C33_exact_partial plainEnv plainEnv_unshared (.cls 0) rfl maskedPoint maskedPoint_calm maskedPoint_variants next).1.2 (maskedPoint_fails _ rfl)

/-- A map with arbitrary text or numbers. -/
abbrev looseMap : Ty := .map true (.variant [tStr, tDbl])

/-- **C33, negation.** For `std::variant<Point>`, `{"x": "text", "y": 2}` does not conform, and is returned as a
`Point` without an exception. -/
theorem C33_masked_in_variant (next : Nat) : Fails plainEnv (.variant [.cls 0]) maskedPoint ∧
    ∃ v, deserializeThrow plainEnv (.variant [.cls 0]) maskedPoint next = .returned v :=
  ⟨.variant _ _ (by intro t ht; simp only [List.mem_singleton] at ht; subst ht; exact maskedPoint_fails _ rfl), ⟨_, rfl⟩⟩

/-- **C33, negation.** A reference that cannot be resolved is rejected by the boolean variant, but the throwing
variant returns a value: for every type of object and every string that is a pointer to no node. -/
theorem C33_reference_not_thrown (env : Env) (t : Ty) (p : Str) (toks : List Str) (hp : pointerTokens env p = some toks)
    (hg : pointerGet (.obj [(lit "$ref", .str p)]) toks = none) (target : Val) (next : Nat) :
    deserializeThrow env (.sptr t) (.obj [(lit "$ref", .str p)]) next = .returned (env.fresh (.sptr t)) ∧
    deserializeBool env (.sptr t) (.obj [(lit "$ref", .str p)]) target next = some (false, target) := by
  have hr : refMember (.obj [(lit "$ref", .str p)]) = some (.str p) := by simp [refMember, findMember]
  constructor
  · simp only [deserializeThrow, deser_sptr, hr, readRef, hp, hg]
  · simp only [deserializeBool, deser_sptr, hr, readRef, hp, hg]

example : deserializeThrow Demo.env (.sptr (.cls 1)) (.obj [(lit "$ref", .str (lit "/nowhere"))]) 0 = .returned (.prim .null) :=
  (C33_reference_not_thrown Demo.env (.cls 1) (lit "/nowhere") [lit "nowhere"] (by decide +kernel) rfl .nullptr 0).1

/-! ## C34 -/

/-- **C34, one direction.** If the throwing variant returns a value, the boolean variant accepts the document
and leaves the same value in a fresh object. -/
theorem C34_returned_accepted (env : Env) (hu : env.Unshared) (t : Ty) (ht : t.unshared = true) (root : Json) (next : Nat) (v : Val)
    (h : deserializeThrow env t root next = .returned v) : deserializeBool env t root (env.fresh t) next = some (true, v) := by
  rw [deserializeThrow_pd env hu t ht] at h
  rw [deserializeBool_pd env hu t ht]
  cases hp : pd env root true t (env.fresh t) [] with
  | ub => rw [hp] at h; cases h
  | threw s e => rw [hp] at h; cases h
  | done ok w =>
    rw [hp] at h
    cases h
    rw [(modes env hu root t ht _ _ ok v hp).2]

example (next : Nat) : deserializeBool plainEnv (.cls 1) goodItem (.prim .null) next = some (true, .obj [.prim (.int 1), .absent, .prim (.int 5)]) :=
  C34_returned_accepted plainEnv plainEnv_unshared (.cls 1) rfl goodItem next _ rfl

/-- **C34.** The two variants agree if no object of the document has a bad member in front of a good one.

Missing: such documents (`C34_disagree_masked`), shared pointers (`C33_reference_not_thrown`), time stamps at
which the clock overflows. -/
theorem C34_agree_partial (env : Env) (hu : env.Unshared) (t : Ty) (ht : t.unshared = true) (root : Json) (hc : Calm env root)
    (hun : Unmasked env t root) (next : Nat) :
    ((∃ path e, deserializeThrow env t root next = .threw path e) ↔ ∃ w, deserializeBool env t root (env.fresh t) next = some (false, w)) ∧
    ∀ v, deserializeThrow env t root next = .returned v ↔ deserializeBool env t root (env.fresh t) next = some (true, v) := by
  obtain ⟨h1, h2⟩ := C32_exact_partial env hu t ht root hc hun (env.fresh t) next
  obtain ⟨h3, h4⟩ := C33_exact_partial env hu t ht root hc hun.variants next
  exact ⟨h3.trans h2.symm, fun v => (h4 v).trans (h1 v).symm⟩

example (next : Nat) : (∃ path e, deserializeThrow plainEnv (.cls 1) badNote next = .threw path e) ↔
    ∃ w, deserializeBool plainEnv (.cls 1) badNote (.prim .null) next = some (false, w) :=
  (C34_agree_partial plainEnv plainEnv_unshared (.cls 1) rfl badNote badNote_calm badNote_unmasked next).1

/-- **C34, negation.** For `{"x": "text", "y": 2}` as a `Point` one variant throws and the other accepts. -/
theorem C34_disagree_masked (target : Val) (next : Nat) :
    deserializeThrow plainEnv (.cls 0) maskedPoint next = .threw (lit "/x") .expectedNumber ∧
    ∃ w, deserializeBool plainEnv (.cls 0) maskedPoint target next = some (true, w) :=
  ⟨rfl, _, rfl⟩

/-! ## C35 -/

/-- The node at a place. -/
def nodeAt : Json → List Nat → Option Json
  | j, [] => some j
  | .arr js, i :: l => (js[i]?).bind fun j => nodeAt j l
  | .obj ms, i :: l => (ms[i]?).bind fun p => nodeAt p.2 l
  | _, _ :: _ => none

theorem findMember_get {α : Type} {n : Str} {i : Nat} {a : α} {ms : List (Str × α)} (h : findMember n ms = some (i, a)) :
    ∃ p, ms[i]? = some p ∧ p.2 = a := by
  induction ms generalizing i with
  | nil => cases h
  | cons p ms ih =>
    obtain ⟨k, b⟩ := p
    simp only [findMember] at h
    split at h
    · cases h
      exact ⟨_, rfl, rfl⟩
    · split at h
      · cases h
      · cases h
        rename_i h
        exact ih h

theorem follow_pointer (segs : List Seg) : ∀ (j j' : Json), (∀ x ∈ segs, x.Plain) → follow j segs = some j' →
    ∃ q, pointerGet j (segs.map segToken) = some q ∧ nodeAt j q = some j' := by
  induction segs with
  | nil =>
    intro j j' _ h
    refine ⟨[], ?_, ?_⟩
    · cases j <;> rfl
    · cases j <;> exact h
  | cons x segs ih =>
    intro j j' hp h
    have hp' := fun y hy => hp y (List.mem_cons_of_mem _ hy)
    have hx := hp x (List.mem_cons_self ..)
    cases x with
    | index i =>
      cases j <;> simp only [follow] at h <;> try contradiction
      rename_i js
      cases hj : js[i]? with
      | none => rw [hj] at h; cases h
      | some j1 =>
        rw [hj] at h
        obtain ⟨q, h1, h2⟩ := ih j1 j' hp' h
        refine ⟨i :: q, ?_, ?_⟩
        · simp only [List.map_cons, pointerGet, segToken, tokenIndex_decimal i hx, hj, h1, Option.map_some]
        · simp only [nodeAt, hj, Option.bind_some, h2]
    | named n =>
      cases j <;> simp only [follow] at h <;> try contradiction
      rename_i ms
      cases hj : findMember n ms with
      | none => rw [hj] at h; cases h
      | some p =>
        obtain ⟨i, j1⟩ := p
        rw [hj] at h
        obtain ⟨q, h1, h2⟩ := ih j1 j' hp' h
        refine ⟨i :: q, ?_, ?_⟩
        · simp only [List.map_cons, pointerGet, segToken, hj, h1, Option.map_some]
        · obtain ⟨p, hk, hp1⟩ := findMember_get hj
          simp only [nodeAt, hk, Option.bind_some, hp1, h2]

/-- **C35.** If the keys of the document are distinct, not empty, without NUL and need no escaping, the text of
the path that is thrown is, unless it is `/`, a JSON pointer, and the pointer resolves to a node of the
document, the node that was rejected: it does not conform to the type it was read as, for the reason that is
thrown, and not because of one of its components. If the text is `/`, the rejected node is the root.

Missing: the root itself (`C35_root_path`), keys that need escaping (`C35_unescaped`), empty keys, types with
shared pointers. -/
theorem C35_path_partial (env : Env) (hu : env.Unshared) (t : Ty) (ht : t.unshared = true) (root : Json) (hc : Calm env root)
    (hT : Tidy root) (next : Nat) (path : Str) (e : Err) (h : deserializeThrow env t root next = .threw path e) :
    ∃ t' j', Part env t root t' j' ∧ LocalBad env t' j' e ∧
      ((path = lit "/" ∧ j' = root) ∨
        ∃ toks q, pointerTokens env path = some toks ∧ toks ≠ [] ∧ pointerGet root toks = some q ∧ nodeAt root q = some j') := by
  rw [deserializeThrow_pd env hu t ht] at h
  cases hp : pd env root true t (env.fresh t) [] with
  | ub => rw [hp] at h; cases h
  | done ok w => rw [hp] at h; cases h
  | threw s e' =>
    rw [hp] at h
    cases h
    obtain ⟨rel, t', j', hs, hpl, hfo, hpart, hb⟩ := blames env hu root t ht hc hT _ _ _ _ hp
    simp only [List.append_nil] at hs
    subst hs
    refine ⟨t', j', hpart, hb, ?_⟩
    by_cases hne : s = []
    · subst hne
      left
      refine ⟨rfl, ?_⟩
      cases root <;> exact (Option.some.inj hfo).symm
    · right
      obtain ⟨q, h1, h2⟩ := follow_pointer s.reverse root j' (fun x hx => hpl x (List.mem_reverse.1 hx)) hfo
      exact ⟨_, q, pointerTokens_pathStr env s hne hpl, by simpa using hne, h1, h2⟩

/-- `{"items": [{"id": 1}, {"id": "two"}]}` -/
def secondBad : Json := .obj [(lit "items", .arr [.obj [(lit "id", .num (.int 1))], .obj [(lit "id", .str (lit "two"))]])]

example : deserializeThrow plainEnv (.map true (.vec (.cls 1))) secondBad 0 = .threw (lit "/items/1/id") (.expectedInt ⟨.w32, true⟩) := rfl

example : ∃ t' j', Part plainEnv (.map true (.vec (.cls 1))) secondBad t' j' ∧ LocalBad plainEnv t' j' (.expectedInt ⟨.w32, true⟩) ∧
    ((lit "/items/1/id" = lit "/" ∧ j' = secondBad) ∨
      ∃ toks q, pointerTokens plainEnv (lit "/items/1/id") = some toks ∧ toks ≠ [] ∧ pointerGet secondBad toks = some q ∧ nodeAt secondBad q = some j') :=
  C35_path_partial plainEnv plainEnv_unshared (.map true (.vec (.cls 1))) rfl secondBad
    (by simp only [secondBad, Calm, CalmAll, CalmFields, CalmStr, and_true, true_and, ne_eq]; decide +kernel)
    (by simp only [secondBad, Tidy, TidyAll, TidyFields, and_true]; decide +kernel) 0 _ _ rfl

/-- **C35, negation.** For a rejected root the path is `/`. That is not a pointer to the root: it addresses the
member with the empty name. -/
theorem C35_root_path : ∃ root, deserializeThrow plainEnv (.cls 0) root 0 = .threw (lit "/") (.missing (lit "x")) ∧
    pointerTokens plainEnv (lit "/") = some [[]] ∧ pointerGet root [[]] = some [0] ∧ nodeAt root [0] = some (.num (.int 7)) :=
  ⟨.obj [([], .num (.int 7))], rfl, by decide +kernel, rfl, rfl⟩

/-- **C35, negation.** Keys are not escaped in the path: here it resolves to another node. -/
theorem C35_unescaped : ∃ root, deserializeThrow plainEnv (.map true (.variant [tInt, .map true tInt])) root 0 = .threw (lit "/a/b") .noAlternative ∧
    pointerTokens plainEnv (lit "/a/b") = some [lit "a", lit "b"] ∧ pointerGet root [lit "a", lit "b"] = some [0, 0] ∧
    nodeAt root [0, 0] = some (.num (.int 1)) :=
  ⟨.obj [(lit "a", .obj [(lit "b", .num (.int 1))]), (lit "a/b", .null)], rfl, by decide +kernel, rfl, rfl⟩

/-! ## C36 -/

/-- **C36.** If in none of the alternatives an object has a bad member in front of a good one, the variant
holds the value of the first alternative to which the document conforms, and reading fails iff there is none.

Missing: such documents (`C36_masked_alternative`); alternatives with shared pointers. -/
theorem C36_first_alternative_partial (env : Env) (hu : env.Unshared) (ts : List Ty) (ht : ∀ t ∈ ts, t.unshared = true) (root : Json)
    (hc : Calm env root) (hun : ∀ t ∈ ts, Unmasked env t root) (target : Val) (next : Nat) :
    (∀ w, deserializeBool env (.variant ts) root target next = some (true, w) ↔
      ∃ (i : Nat) (t : Ty) (v : Val), ts[i]? = some t ∧ (∀ (k : Nat) (t' : Ty), k < i → ts[k]? = some t' → Fails env t' root) ∧
        Decodes env t root (env.fresh t) v ∧ w = .alt i v) ∧
    ((∃ w, deserializeBool env (.variant ts) root target next = some (false, w)) ↔ ∀ t ∈ ts, Fails env t root) := by
  have hun' : Unmasked env (.variant ts) root := Unmasked.of (fun _ _ h => by cases h) fun t' j' h => by
    cases h with
    | variant _ _ _ h => exact hun _ h
  have htu : (Ty.variant ts).unshared = true := by simpa [Ty.unshared, Ty.unshareds_iff] using ht
  obtain ⟨h1, h2⟩ := C32_exact_partial env hu (.variant ts) htu root hc hun' target next
  refine ⟨fun w => (h1 w).trans ⟨fun h => ?_, ?_⟩, h2.trans ⟨fun h => ?_, fun h => .variant ts root h⟩⟩
  · cases h with
    | variant _ _ _ i t v h1 h2 h3 => exact ⟨i, t, v, h1, h2, h3, rfl⟩
  · rintro ⟨i, t, v, h1, h2, h3, rfl⟩
    exact .variant ts root target i t v h1 h2 h3
  · cases h with
    | variant _ _ h => exact h
    | array _ _ h => cases h
    | object _ _ h => cases h

example (target : Val) (next : Nat) : deserializeBool plainEnv (.variant [tStr, tInt, .cls 1]) goodItem target next =
    some (true, .alt 2 (.obj [.prim (.int 1), .absent, .prim (.int 5)])) := by
  refine ((C36_first_alternative_partial plainEnv plainEnv_unshared [tStr, tInt, .cls 1] (by decide) goodItem goodItem_calm ?_ target next).1 _).2 ?_
  · intro t ht
    simp only [List.mem_cons, List.not_mem_nil, or_false] at ht
    rcases ht with rfl | rfl | rfl
    · exact Unmasked.prim plainEnv _ _
    · exact Unmasked.prim plainEnv _ _
    · exact goodItem_unmasked
  · refine ⟨2, .cls 1, .obj [.prim (.int 1), .absent, .prim (.int 5)], rfl, ?_, ?_, rfl⟩
    · intro k t' hk ht'
      match k, hk with
      | 0, _ => cases ht'; exact .prim _ _ fun pv h => by cases h
      | 1, _ => cases ht'; exact .prim _ _ fun pv h => by cases h
    · exact goodItem_decodes _

/-- **C36, negation.** The first alternative is chosen although the document does not conform to it and does
conform to the second one. -/
theorem C36_masked_alternative (target : Val) (next : Nat) : Fails plainEnv (.cls 0) maskedPoint ∧
    (∃ v, Decodes plainEnv looseMap maskedPoint (.prim .null) v) ∧
    ∃ v, deserializeBool plainEnv (.variant [.cls 0, looseMap]) maskedPoint target next = some (true, .alt 0 v) := by
  refine ⟨maskedPoint_fails _ rfl, ⟨_, .map _ _ _ _ _ (.cons _ _ _ _ _ _ (.variant _ _ _ 0 tStr _ rfl (fun k t' hk => by omega) (.prim _ _ _ _ (.str _)))
    (.cons _ _ _ _ _ _ (.variant _ _ _ 1 tDbl _ rfl ?_ (.prim _ _ _ _ (.flt _ _))) (.nil _)))⟩, ⟨_, rfl⟩⟩
  intro k t' hk ht'
  match k, hk with
  | 0, _ => cases ht'; exact .prim _ _ fun pv h => by cases h

/-! ## C37 (DOM reader) -/

/-- **C37, DOM reader.** The outcome of reading a class depends only on the members of the document whose keys
are member names: removing all the others changes nothing, in either variant, whatever they contain. -/
theorem C37_dom_ignores_unknown (env : Env) (hu : env.Unshared) (c : Nat) (known : Str → Bool)
    (hk : ∀ m ∈ env.members c, known m.name = true) (fields : List (Str × Json)) (target : Val) (next : Nat) :
    deserializeBool env (.cls c) (.obj fields) target next =
      deserializeBool env (.cls c) (.obj (fields.filter fun p => known p.1)) target next ∧
    deserializeThrow env (.cls c) (.obj fields) next = deserializeThrow env (.cls c) (.obj (fields.filter fun p => known p.1)) next := by
  have h : ∀ exc target, pd env (.obj fields) exc (.cls c) target [] = pd env (.obj (fields.filter fun p => known p.1)) exc (.cls c) target [] := by
    intro exc target
    rw [pd_cls env hu, pd_cls env hu]
    congr 1
    apply pMembers_congr
    intro m hm
    rw [findMember_value, findMember_value, lookup_filter known m.name (hk m hm)]
  rw [deserializeBool_pd env hu _ rfl, deserializeBool_pd env hu _ rfl, deserializeThrow_pd env hu _ rfl, deserializeThrow_pd env hu _ rfl, h, h]
  exact ⟨rfl, rfl⟩

example (target : Val) (next : Nat) : deserializeBool plainEnv (.cls 1) goodItem target next =
    deserializeBool plainEnv (.cls 1) (.obj [(lit "id", .num (.int 1)), (lit "count", .num (.int 5))]) target next :=
  (C37_dom_ignores_unknown plainEnv plainEnv_unshared 1 (fun k => k != lit "extra")
    (by show ∀ m ∈ item.members, _; decide) _ target next).1

/-! ## C38 (DOM reader) -/

/-- **C38, DOM reader.** Permuting the members of an object with distinct keys does not change the outcome of
reading a class, in either variant. -/
theorem C38_dom_order (env : Env) (hu : env.Unshared) (c : Nat) (fields fields' : List (Str × Json)) (hp : fields.Perm fields')
    (hn : (fields.map (·.1)).Nodup) (target : Val) (next : Nat) :
    deserializeBool env (.cls c) (.obj fields) target next = deserializeBool env (.cls c) (.obj fields') target next ∧
    deserializeThrow env (.cls c) (.obj fields) next = deserializeThrow env (.cls c) (.obj fields') next := by
  have h : ∀ exc target, pd env (.obj fields) exc (.cls c) target [] = pd env (.obj fields') exc (.cls c) target [] := by
    intro exc target
    rw [pd_cls env hu, pd_cls env hu]
    congr 1
    apply pMembers_congr
    intro m hm
    rw [findMember_value, findMember_value, lookup_perm hp hn]
  rw [deserializeBool_pd env hu _ rfl, deserializeBool_pd env hu _ rfl, deserializeThrow_pd env hu _ rfl, deserializeThrow_pd env hu _ rfl, h, h]
  exact ⟨rfl, rfl⟩

example (target : Val) (next : Nat) : deserializeBool plainEnv (.cls 1) goodItem target next =
    deserializeBool plainEnv (.cls 1) (.obj [(lit "extra", .null), (lit "count", .num (.int 5)), (lit "id", .num (.int 1))]) target next :=
  (C38_dom_order plainEnv plainEnv_unshared 1 _ _ (List.reverse_perm _).symm (by decide) target next).1

/-- **C38, DOM reader.** Permuting the members of any objects inside the document, at any depth and for any
type, changes neither the verdict nor the value, if no object has a bad member in front of a good one.

Missing: masked members; keys that are distinct only behind a NUL character; types
with shared pointers. -/
theorem C38_dom_deep_partial (env : Env) (hu : env.Unshared) (t : Ty) (ht : t.unshared = true) (root root' : Json) (hs : Shuffle root root')
    (hc : Calm env root) (hc' : Calm env root') (hun : Unmasked env t root) (hun' : Unmasked env t root') (target : Val) (next : Nat) :
    (∀ v, deserializeBool env t root target next = some (true, v) ↔ deserializeBool env t root' target next = some (true, v)) ∧
    ∀ v, deserializeThrow env t root next = .returned v ↔ deserializeThrow env t root' next = .returned v := by
  obtain ⟨h1, h2⟩ := shuffle_meaning env root t root' hs
  have key : ∀ target v, Decodes env t root target v ↔ Decodes env t root' target v := by
    intro target v
    refine ⟨h1 target v, fun h => ?_⟩
    rcases verdict env hu root t ht with hd | hf
    · obtain ⟨w, hw⟩ := hd target
      have h3 := (C32_exact_partial env hu t ht root' hc' hun' target next).1
      have := (h3 v).2 h
      rw [(h3 w).2 (h1 target w hw)] at this
      cases this
      exact hw
    · exact absurd h (exclusive env root' t (h2 hf) target v)
  refine ⟨fun v => ?_, fun v => ?_⟩
  · rw [(C32_exact_partial env hu t ht root hc hun target next).1, (C32_exact_partial env hu t ht root' hc' hun' target next).1, key]
  · rw [(C33_exact_partial env hu t ht root hc hun.variants next).2, (C33_exact_partial env hu t ht root' hc' hun'.variants next).2, key]

example (target : Val) (next : Nat) (v : Val) :
    deserializeBool plainEnv (.map true tInt) (.obj [(lit "a", .num (.int 1)), (lit "b", .num (.int 2))]) target next = some (true, v) ↔
    deserializeBool plainEnv (.map true tInt) (.obj [(lit "b", .num (.int 2)), (lit "a", .num (.int 1))]) target next = some (true, v) := by
  have hun : ∀ ms, Unmasked plainEnv (.map true tInt) (.obj ms) := fun ms => Unmasked.of (fun _ _ h => by cases h) fun t' j' h => by
    cases h with
    | map _ _ _ p h => exact Unmasked.prim plainEnv _ _
  refine (C38_dom_deep_partial plainEnv plainEnv_unshared (.map true tInt) rfl _ _ ?_ (by simp [Calm, CalmFields]) (by simp [Calm, CalmFields])
    (hun _) (hun _) target next).1 v
  exact .obj _ [(lit "b", .num (.int 2)), (lit "a", .num (.int 1))] _ (by decide) (List.reverse_perm _).symm
    (.cons _ _ _ _ _ (.same _) (.cons _ _ _ _ _ (.same _) .nil))

/-! ## C39 (DOM reader) -/

/-- **C39, DOM reader.** An array or tuple is read, in either variant, at any place, for any element types,
only from a JSON array with exactly its number of elements. -/
theorem C39_dom_exact_length (env : Env) (root j : Json) (exc : Bool) (target v : Val) (loc : Loc) (segs : List Seg) (st st' : DState) :
    (∀ n t, deser env root j exc (.arr n t) target loc segs st = .done true v st' → ∃ js, j = .arr js ∧ js.length = n) ∧
    ∀ ts, deser env root j exc (.tuple ts) target loc segs st = .done true v st' → ∃ js, j = .arr js ∧ js.length = ts.length := by
  have hrej : ∀ (e : Err) (tg : Val), DRes.reject exc segs e tg st ≠ .done true v st' := by
    intro e tg h
    cases exc <;> simp [DRes.reject] at h
  constructor
  · intro n t h
    rw [deser_arr] at h
    cases j <;> try exact absurd h (hrej _ _)
    rename_i js
    by_cases hl : js.length = n
    · exact ⟨js, rfl, hl⟩
    · simp only [if_neg hl] at h
      exact absurd h (hrej _ _)
  · intro ts h
    rw [deser_tuple] at h
    cases j <;> try exact absurd h (hrej _ _)
    rename_i js
    by_cases hl : js.length = ts.length
    · exact ⟨js, rfl, hl⟩
    · simp only [if_neg hl] at h
      exact absurd h (hrej _ _)

example : ∃ js, (Json.arr [.num (.int 1), .num (.int 2)]) = .arr js ∧ js.length = 2 :=
  (C39_dom_exact_length Demo.env .null (.arr [.num (.int 1), .num (.int 2)]) true .nullptr (.tup [.prim (.int 1), .prim (.int 2)]) [] [] ⟨[], 0⟩ ⟨[], 0⟩).1
    2 tInt rfl

/-- **C39, DOM reader.** A JSON array of another length is rejected: the throwing variant reports both
lengths, the other returns `false` and leaves the target as it was. -/
theorem C39_dom_other_length (env : Env) (js : List Json) (target : Val) (next : Nat) :
    (∀ n t, js.length ≠ n → deserializeThrow env (.arr n t) (.arr js) next = .threw (lit "/") (.sizeMismatch n js.length) ∧
      deserializeBool env (.arr n t) (.arr js) target next = some (false, target)) ∧
    ∀ ts, js.length ≠ ts.length → deserializeThrow env (.tuple ts) (.arr js) next = .threw (lit "/") (.sizeMismatch ts.length js.length) ∧
      deserializeBool env (.tuple ts) (.arr js) target next = some (false, target) := by
  constructor
  · intro n t h
    constructor
    · simp only [deserializeThrow, deser_arr, if_neg h, DRes.reject, if_true]; rfl
    · simp only [deserializeBool, deser_arr, if_neg h, DRes.reject]; rfl
  · intro ts h
    constructor
    · simp only [deserializeThrow, deser_tuple, if_neg h, DRes.reject, if_true]; rfl
    · simp only [deserializeBool, deser_tuple, if_neg h, DRes.reject]; rfl

example : deserializeThrow Demo.env (.arr 3 tInt) (.arr [.num (.int 1)]) 0 = .threw (lit "/") (.sizeMismatch 3 1) :=
  ((C39_dom_other_length Demo.env [.num (.int 1)] .nullptr 0).1 3 tInt (by decide)).1

/-! ## C40 (DOM reader) -/

/-- **C40, DOM reader.** If all default members of classes are in the document and no object has a bad member
in front of a good one, then a successful read leaves the same value whatever the target contained, and
whether reading succeeds does not depend on the target either.

Missing: masked members (`C40_masked_keeps`); shared pointers. -/
theorem C40_dom_target_partial (env : Env) (hu : env.Unshared) (t : Ty) (ht : t.unshared = true) (root : Json) (hc : Calm env root)
    (hun : Unmasked env t root) (hF : Filled env t root) (target target' : Val) (next next' : Nat) (v : Val) :
    deserializeBool env t root target next = some (true, v) ↔ deserializeBool env t root target' next' = some (true, v) := by
  rw [(C32_exact_partial env hu t ht root hc hun target next).1, (C32_exact_partial env hu t ht root hc hun target' next').1]
  exact ⟨decodes_any_target env root t hF _ _ _, decodes_any_target env root t hF _ _ _⟩

theorem goodItem_filled : Filled plainEnv (.cls 1) goodItem := by
  intro c fields hp m hm hk
  rcases Part.head hp with ⟨h1, h2⟩ | ⟨t1, j1, h1, h2⟩
  · cases h1
    cases h2
    have : m = ⟨lit "id", .required, tInt⟩ ∨ m = ⟨lit "note", .optional, tStr⟩ ∨ m = ⟨lit "count", .default, tInt⟩ := by
      simpa [Env.members, plainEnv, plainClasses, item] using hm
    rcases this with rfl | rfl | rfl
    · cases hk
    · cases hk
    · exact fun h => by cases h
  · cases h1 with
    | cls _ _ m i _ hm hf =>
      have : m = ⟨lit "id", .required, tInt⟩ ∨ m = ⟨lit "note", .optional, tStr⟩ ∨ m = ⟨lit "count", .default, tInt⟩ := by
        simpa [Env.members, plainEnv, plainClasses, item] using hm
      rcases this with rfl | rfl | rfl
      all_goals
        rcases Part.head h2 with ⟨h, -⟩ | ⟨t2, j2, hc, -⟩
        · cases h
        · cases hc

example (v : Val) : deserializeBool plainEnv (.cls 1) goodItem item7 0 = some (true, v) ↔ deserializeBool plainEnv (.cls 1) goodItem item8 0 = some (true, v) :=
  C40_dom_target_partial plainEnv plainEnv_unshared (.cls 1) rfl goodItem goodItem_calm goodItem_unmasked goodItem_filled item7 item8 0 0 v

/-- **C40, negation.** Reading succeeds, but the first member keeps what the target contained: `struct Point`
has no default members. -/
theorem C40_masked_keeps (x y : Val) (next : Nat) : ∃ y',
    deserializeBool plainEnv (.cls 0) maskedPoint (.obj [x, y]) next = some (true, .obj [x, y']) :=
  ⟨_, rfl⟩

/-! ## C41 -/

/-- The types of C41. -/
def KeepsTarget : Ty → Prop
  | .arr _ _ | .uptr _ => True
  | .prim .bytes => False
  | .prim _ => True
  | _ => False

/-- **C41.** When reading an array, a unique pointer, a number, truth value, string, enumeration, time stamp or
date fails, at any place of a document, the target is what it was. -/
theorem C41_failed_keeps_target (env : Env) (root j : Json) (t : Ty) (ht : KeepsTarget t) (target v : Val) (loc : Loc) (segs : List Seg)
    (st st' : DState) (h : deser env root j false t target loc segs st = .done false v st') : v = target := by
  have hrej : ∀ (e : Err) (tg : Val), DRes.reject false segs e tg st = .done false v st' → v = tg := by
    intro e tg h
    simp [DRes.reject] at h
    exact h.1.symm
  cases t with
  | prim p =>
    rw [deser_prim] at h
    split at h
    · cases h
    · have := hrej _ _ h
      rw [this]
      cases p <;> first | exact ht.elim | rfl
    · cases h
  | arr n t =>
    rw [deser_arr] at h
    cases j <;> try exact hrej _ _ h
    rename_i js
    by_cases hl : js.length = n
    · simp only [if_pos hl] at h
      split at h <;> cases h
      rfl
    · simp only [if_neg hl] at h
      exact hrej _ _ h
  | uptr t =>
    rw [deser_uptr] at h
    split at h <;> cases h
    rfl
  | _ => exact ht.elim

example : ∃ v st', deser Demo.env .null (.arr [.num (.int 1), .str (lit "two")]) false (.arr 2 tInt) (.tup [.prim (.int 8), .prim (.int 9)]) [] [] ⟨[], 0⟩ =
    .done false v st' ∧ v = .tup [.prim (.int 8), .prim (.int 9)] :=
  ⟨_, _, rfl, C41_failed_keeps_target Demo.env .null (.arr [.num (.int 1), .str (lit "two")]) (.arr 2 tInt) trivial _ _ [] [] ⟨[], 0⟩ ⟨[], 0⟩ rfl⟩

/-- The restriction in C41 matters: a vector that cannot be read loses what it contained. -/
example : deserializeBool plainEnv (.vec tInt) (.arr [.num (.int 1), .str (lit "two")]) (.seq [.prim (.int 8)]) 0 = some (false, .seq [.prim (.int 1)]) := rfl

/-! ## C56 (DOM reader) -/

/-- **C56, DOM reader.** For a class, the first of several members with the same key counts, the others are
not read at all: the outcome is the same for any two documents in which each key occurs first with the same
value. -/
theorem C56_dom_class_first (env : Env) (hu : env.Unshared) (c : Nat) (fields fields' : List (Str × Json))
    (h : ∀ m ∈ env.members c, fields.lookup m.name = fields'.lookup m.name) (target : Val) (next : Nat) :
    deserializeBool env (.cls c) (.obj fields) target next = deserializeBool env (.cls c) (.obj fields') target next ∧
    deserializeThrow env (.cls c) (.obj fields) next = deserializeThrow env (.cls c) (.obj fields') next := by
  have h : ∀ exc target, pd env (.obj fields) exc (.cls c) target [] = pd env (.obj fields') exc (.cls c) target [] := by
    intro exc target
    rw [pd_cls env hu, pd_cls env hu]
    congr 1
    apply pMembers_congr
    intro m hm
    rw [findMember_value, findMember_value, h m hm]
  rw [deserializeBool_pd env hu _ rfl, deserializeBool_pd env hu _ rfl, deserializeThrow_pd env hu _ rfl, deserializeThrow_pd env hu _ rfl, h, h]
  exact ⟨rfl, rfl⟩

example (target : Val) (next : Nat) : deserializeBool plainEnv (.cls 1) (.obj [(lit "id", .num (.int 1)), (lit "id", .null)]) target next =
    deserializeBool plainEnv (.cls 1) (.obj [(lit "id", .num (.int 1))]) target next :=
  (C56_dom_class_first plainEnv plainEnv_unshared 1 _ _ (by show ∀ m ∈ item.members, _; intro m _; simp [List.lookup_cons]; split <;> simp_all) target next).1

/-- **C56, DOM reader.** For a map, the last of several members with the same key counts (keys are taken up to
the first NUL character), but all of them must be readable. -/
theorem C56_dom_map_last (env : Env) (o : Bool) (t : Ty) (root : Json) (target : Val) (next : Nat) (w : Val)
    (h : deserializeBool env (.map o t) root target next = some (true, w)) :
    ∃ ms kvs, root = .obj ms ∧ w = .map kvs ∧ ∀ (i : Nat) (p : Str × Json), ms[i]? = some p →
      ∃ v st st', deser env root p.2 false t (env.fresh t) [i] [Seg.name (cstr p.1)] st = .done true v st' ∧
        ((∀ k q, i < k → ms[k]? = some q → q.1.takeWhile (· ≠ 0) ≠ p.1.takeWhile (· ≠ 0)) → kvs.lookup (p.1.takeWhile (· ≠ 0)) = some v) := by
  obtain ⟨ms, kvs, h1, h2, -, -, vs, hl, h3, h4⟩ := C57_keys_read env o t root target next w h
  refine ⟨ms, kvs, h1, h2, fun i p hp => ?_⟩
  have hi : i < ms.length := (List.getElem?_eq_some_iff.1 hp).1
  have hv : vs[i]? = some (vs[i]'(by omega)) := by simp
  obtain ⟨st, st', hd⟩ := h3 i p _ hp hv
  exact ⟨_, st, st', hd, h4 i p _ hp hv⟩

example : deserializeBool Demo.env (.map true tInt) (.obj [(lit "a", .num (.int 1)), (lit "a", .num (.int 2))]) .nullptr 0 =
    some (true, .map [(lit "a", .prim (.int 2))]) := rfl

/-- **C56, negation within the DOM reader.** The same members are resolved differently for a class (first) and
for a map (last). -/
theorem C56_dom_class_map_differ : ∃ doc : Json,
    deserializeBool plainEnv (.cls 1) doc (.prim .null) 0 = some (true, .obj [.prim (.int 1), .absent, .prim .null]) ∧
    deserializeBool plainEnv (.map true tInt) doc (.prim .null) 0 = some (true, .map [(lit "id", .prim (.int 2))]) :=
  ⟨.obj [(lit "id", .num (.int 1)), (lit "id", .num (.int 2))], rfl, rfl⟩

end Verif.Props
