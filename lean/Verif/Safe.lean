import Verif.ReadShared

/-!
# Undefined behaviour of the DOM reader

What may go wrong is a reference: `"$ref"` that is not a string, a text that is no JSON pointer, or a node that was read
as a shared object of another type.
-/

namespace Verif.Core

/-! ## Specification -/

/-- When a node is read as a type, a component is read as another type; with places in the document. -/
inductive ChildAt (env : Env) : Ty → Json → Loc → Ty → Json → Loc → Prop
  | vec (t : Ty) (js : List Json) (i : Nat) (j : Json) (loc : Loc) : js[i]? = some j → ChildAt env (.vec t) (.arr js) loc t j (i :: loc)
  | arr (n : Nat) (t : Ty) (js : List Json) (i : Nat) (j : Json) (loc : Loc) : js[i]? = some j → ChildAt env (.arr n t) (.arr js) loc t j (i :: loc)
  | set (t : Ty) (js : List Json) (i : Nat) (j : Json) (loc : Loc) : js[i]? = some j → ChildAt env (.set t) (.arr js) loc t j (i :: loc)
  | dict (t : Ty) (js : List Json) (i : Nat) (j : Json) (loc : Loc) : js[i]? = some j →
      ChildAt env (.dict t) (.arr js) loc (.tuple [.prim .str, t]) j (i :: loc)
  | map (o : Bool) (t : Ty) (ms : List (Str × Json)) (i : Nat) (p : Str × Json) (loc : Loc) : ms[i]? = some p →
      ChildAt env (.map o t) (.obj ms) loc t p.2 (i :: loc)
  | tuple (ts : List Ty) (js : List Json) (i : Nat) (t : Ty) (j : Json) (loc : Loc) : ts[i]? = some t → js[i]? = some j →
      ChildAt env (.tuple ts) (.arr js) loc t j (i :: loc)
  | variant (ts : List Ty) (j : Json) (t : Ty) (loc : Loc) : t ∈ ts → ChildAt env (.variant ts) j loc t j loc
  | cls (c : Nat) (ms : List (Str × Json)) (m : Member) (i : Nat) (j : Json) (loc : Loc) : m ∈ env.members c → findMember m.name ms = some (i, j) →
      ChildAt env (.cls c) (.obj ms) loc m.ty j (i :: loc)
  | uptr (t : Ty) (j : Json) (loc : Loc) : ChildAt env (.uptr t) j loc t j loc
  | sptr (t : Ty) (j : Json) (loc : Loc) : refMember j = none → ChildAt env (.sptr t) j loc t j loc

/-- When the document `root` is read as a `T`, the node `j` at the place `loc` is read as a `t`. -/
inductive NodeAt (env : Env) (T : Ty) (root : Json) : Ty → Json → Loc → Prop
  | root : NodeAt env T root T root []
  | child (t : Ty) (j : Json) (loc : Loc) (t' : Ty) (j' : Json) (loc' : Loc) : NodeAt env T root t j loc → ChildAt env t j loc t' j' loc' →
      NodeAt env T root t' j' loc'

/-- All references of the document are texts of JSON pointers, and each refers to no shared object of another
type. -/
def SoundRefs (env : Env) (T : Ty) (root : Json) : Prop :=
  ∀ t j loc r, NodeAt env T root (.sptr t) j loc → refMember j = some r →
    ∃ p toks, r = .str p ∧ pointerTokens env p = some toks ∧
      ∀ q t' j', pointerGet root toks = some q → NodeAt env T root (.sptr t') j' q.reverse → refMember j' = none → t' = t

theorem ChildAt.noRef {env : Env} {t t' : Ty} {j j' : Json} {loc loc' : Loc} (h : ChildAt env t j loc t' j' loc') (hn : j.noRef) : j'.noRef := by
  cases h with
  | vec _ js i _ _ hj => exact noRef_item hn (List.mem_of_getElem? hj)
  | arr _ _ js i _ _ hj => exact noRef_item hn (List.mem_of_getElem? hj)
  | set _ js i _ _ hj => exact noRef_item hn (List.mem_of_getElem? hj)
  | dict _ js i _ _ hj => exact noRef_item hn (List.mem_of_getElem? hj)
  | map _ _ ms i p _ hp => exact noRef_field hn (List.mem_of_getElem? hp)
  | tuple _ js i _ _ _ _ hj => exact noRef_item hn (List.mem_of_getElem? hj)
  | variant => exact hn
  | cls _ ms m i _ _ _ hf => exact noRef_field hn (findMember_mem hf)
  | uptr => exact hn
  | sptr => exact hn

theorem NodeAt.noRef {env : Env} {T t : Ty} {root j : Json} {loc : Loc} (h : NodeAt env T root t j loc) (hn : root.noRef) : j.noRef := by
  induction h with
  | root => exact hn
  | child _ _ _ _ _ _ _ hc ih => exact hc.noRef ih

/-! ## The table of objects -/

/-- Every entry of the table is a shared object of the type as which its node is read. -/
def TableOf (env : Env) (T : Ty) (root : Json) (st : DState) : Prop :=
  ∀ q a t v, st.get q = some (a, t, v) → ∃ j, NodeAt env T root (.sptr t) j q ∧ refMember j = none

/-- No undefined behaviour, exceptions only if asked for, and the table is kept. -/
def Sound {α : Type} (env : Env) (T : Ty) (root : Json) (exc : Bool) : DRes α → Prop
  | .ub => False
  | .threw _ _ => exc = true
  | .done _ _ st => TableOf env T root st

theorem Sound.map {α β : Type} {env : Env} {T : Ty} {root : Json} {exc : Bool} {r : DRes α} (f : α → β) (h : Sound env T root exc r) :
    Sound env T root exc (r.map f) := by
  cases r <;> exact h

theorem sound_reject {α : Type} {env : Env} {T : Ty} {root : Json} (exc : Bool) (segs : List Seg) (e : Err) (target : α) {st : DState}
    (h : TableOf env T root st) : Sound env T root exc (.reject exc segs e target st) := by
  cases exc
  · exact h
  · exact rfl

/-- The node can be read. -/
def SoundAt (env : Env) (T : Ty) (root j : Json) (t : Ty) (loc : Loc) : Prop :=
  ∀ exc target segs st, TableOf env T root st → Sound env T root exc (deser env root j exc t target loc segs st)

theorem runSame_sound (env : Env) (T : Ty) (root : Json) (t : Ty) (exc : Bool) (loc : Loc) (segs : List Seg) :
    ∀ (js : List Json) (k : Nat), (∀ i j, js[i]? = some j → SoundAt env T root j t ((k + i) :: loc)) → ∀ st, TableOf env T root st →
      Sound env T root exc (runSame env t exc (js.map (deser env root)) k loc segs st) := by
  intro js
  induction js with
  | nil => exact fun k _ st h => h
  | cons j js ih =>
    intro k h st hst
    simp only [List.map_cons, runSame]
    have h1 := h 0 j rfl exc (env.fresh t) (.index k :: segs) st hst
    rw [Nat.add_zero] at h1
    generalize deser env root j exc t (env.fresh t) (k :: loc) (.index k :: segs) st = r at h1 ⊢
    cases r with
    | ub => exact h1
    | threw s e => exact h1
    | done ok v st' =>
      cases ok with
      | false => exact h1
      | true =>
        exact (ih (k + 1) (fun i j hj => by
          have := h (i + 1) j (by simpa using hj)
          rwa [Nat.add_comm i 1, ← Nat.add_assoc] at this) st' h1).map _

theorem runTuple_sound (env : Env) (T : Ty) (root : Json) (exc : Bool) (loc : Loc) (segs : List Seg) :
    ∀ (js : List Json) (ts : List Ty) (k : Nat), (∀ (i : Nat) j t, js[i]? = some j → ts[i]? = some t → SoundAt env T root j t ((k + i) :: loc)) →
      ∀ targets st, TableOf env T root st → Sound env T root exc (runTuple env exc (js.map (deser env root)) ts targets k loc segs st) := by
  intro js
  induction js with
  | nil => intro ts k _ targets st h; cases ts <;> exact h
  | cons j js ih =>
    intro ts k h targets st hst
    cases ts with
    | nil => exact hst
    | cons t ts =>
      simp only [List.map_cons, runTuple]
      have h1 := h 0 j t rfl rfl exc (targets.headD (env.fresh t)) (.index k :: segs) st hst
      rw [Nat.add_zero] at h1
      generalize deser env root j exc t (targets.headD (env.fresh t)) (k :: loc) (.index k :: segs) st = r at h1 ⊢
      cases r with
      | ub => exact h1
      | threw s e => exact h1
      | done ok v st' =>
        cases ok with
        | false => exact h1
        | true =>
          exact (ih ts (k + 1) (fun i j t hj ht => by
            have := h (i + 1) j t (by simpa using hj) (by simpa using ht)
            rwa [Nat.add_comm i 1, ← Nat.add_assoc] at this) targets.tail st' h1).map _

theorem runEntries_sound (env : Env) (T : Ty) (root : Json) (t : Ty) (exc : Bool) (loc : Loc) (segs : List Seg) :
    ∀ (ms : List (Str × Json)) (k : Nat), (∀ i p, ms[i]? = some p → SoundAt env T root p.2 t ((k + i) :: loc)) → ∀ st, TableOf env T root st →
      Sound env T root exc (runEntries env t exc (ms.map fun p => (p.1, deser env root p.2)) k loc segs st) := by
  intro ms
  induction ms with
  | nil => exact fun k _ st h => h
  | cons p ms ih =>
    intro k h st hst
    simp only [List.map_cons, runEntries]
    have h1 := h 0 p rfl exc (env.fresh t) (Seg.name (cstr p.1) :: segs) st hst
    rw [Nat.add_zero] at h1
    generalize deser env root p.2 exc t (env.fresh t) (k :: loc) (Seg.name (cstr p.1) :: segs) st = r at h1 ⊢
    cases r with
    | ub => exact h1
    | threw s e => exact h1
    | done ok v st' =>
      cases ok with
      | false => exact h1
      | true =>
        exact (ih (k + 1) (fun i p hp => by
          have := h (i + 1) p (by simpa using hp)
          rwa [Nat.add_comm i 1, ← Nat.add_assoc] at this) st' h1).map _

theorem runMembers_sound (env : Env) (T : Ty) (root : Json) (exc : Bool) (loc : Loc) (segs : List Seg) (fs : List (Str × Json)) :
    ∀ (ms : List Member), (∀ m ∈ ms, ∀ i j, findMember m.name fs = some (i, j) → SoundAt env T root j m.ty (i :: loc)) → ∀ targets res st,
      TableOf env T root st → Sound env T root exc (runMembers env exc (fs.map fun p => (p.1, deser env root p.2)) loc segs ms targets res st) := by
  intro ms
  induction ms with
  | nil => exact fun _ targets res st h => h
  | cons m ms ih =>
    intro h targets res st hst
    have ih := ih (fun m' hm => h m' (by simp [hm]))
    simp only [runMembers, findMember_map]
    cases hf : findMember m.name fs with
    | none =>
      simp only [Option.map_none]
      cases m.kind with
      | required =>
        cases exc with
        | true => exact rfl
        | false => exact (ih targets.tail false st hst).map _
      | optional => exact (ih targets.tail res st hst).map _
      | default => exact (ih targets.tail res st hst).map _
    | some q =>
      obtain ⟨i, j⟩ := q
      simp only [Option.map_some]
      have h1 := h m (by simp) i j hf exc (if m.kind = .optional then env.fresh m.ty else targets.headD (env.fresh m.ty)) (Seg.name (cstr m.name) :: segs)
        st hst
      generalize deser env root j exc m.ty _ (i :: loc) _ st = r at h1 ⊢
      cases r with
      | ub => exact h1
      | threw s e => exact h1
      | done ok v st' => exact (ih targets.tail ok st' h1).map _

theorem tryAll_sound (env : Env) (T : Ty) (root j : Json) (loc : Loc) (segs : List Seg) :
    ∀ (ts : List Ty), (∀ t ∈ ts, SoundAt env T root j t loc) → ∀ i st, TableOf env T root st → Sound env T root false (tryAll env root j ts i loc segs st) := by
  intro ts
  induction ts with
  | nil => exact fun _ i st h => h
  | cons t ts ih =>
    intro h i st hst
    simp only [tryAll]
    have h1 := h t (by simp) false (env.fresh t) segs st hst
    generalize deser env root j false t (env.fresh t) loc segs st = r at h1 ⊢
    cases r with
    | ub => exact h1
    | threw s e => exact h1
    | done ok v st' =>
      cases ok with
      | true => exact h1
      | false => exact ih (fun t ht => h t (by simp [ht])) (i + 1) st' h1

theorem TableOf.put {env : Env} {T : Ty} {root : Json} {st : DState} (h : TableOf env T root st) {t : Ty} {j : Json} {loc : Loc}
    (hn : NodeAt env T root (.sptr t) j loc) (hr : refMember j = none) (a : Nat) (v : Val) : TableOf env T root (st.put loc (a, t, v)) := by
  intro q a' t' v' hq
  unfold DState.put at hq
  cases hl : st.refs.lookup loc with
  | some e => rw [hl] at hq; exact h q a' t' v' hq
  | none =>
    rw [hl] at hq
    simp only [DState.get, List.lookup_cons] at hq
    by_cases hql : q = loc
    · subst hql
      simp only [beq_self_eq_true, Option.some.injEq, Prod.mk.injEq] at hq
      obtain ⟨-, rfl, -⟩ := hq
      exact ⟨j, hn, hr⟩
    · rw [beq_eq_false_iff_ne.2 hql] at hq
      exact h q a' t' v' hq

/-- Reading is sound. -/
theorem deser_sound (env : Env) (T : Ty) (root : Json) (hs : SoundRefs env T root) :
    ∀ j t, Calm env j → ∀ loc, NodeAt env T root t j loc → SoundAt env T root j t loc := by
  apply lexInd
  intro j t ihj iht hc loc hn exc target segs st hst
  have hitem : ∀ js, j = .arr js → ∀ (i : Nat) j' t', js[i]? = some j' → ChildAt env t j loc t' j' (i :: loc) → SoundAt env T root j' t' (i :: loc) := by
    rintro js rfl i j' t' hj' hch
    have hm := List.mem_of_getElem? hj'
    exact ihj j' (size_item hm) t' (hc.item hm) _ (.child _ _ _ _ _ _ hn hch)
  have hfield : ∀ ms, j = .obj ms → ∀ (i : Nat) p t', p ∈ ms → ChildAt env t j loc t' p.2 (i :: loc) → SoundAt env T root p.2 t' (i :: loc) := by
    rintro ms rfl i p t' hp hch
    exact ihj p.2 (size_field hp) t' (hc.field hp) _ (.child _ _ _ _ _ _ hn hch)
  cases t with
  | prim p =>
    rw [deser_prim]
    have h1 := desPrim_calm env p j hc
    cases hd : desPrim env p j with
    | ub => exact absurd hd h1
    | reject e => exact sound_reject _ _ _ _ hst
    | ok pv => exact hst
  | vec t =>
    rw [deser_vec]
    cases j with
    | arr js =>
      exact (runSame_sound env T root t exc loc segs js 0 (fun i j hj => by rw [Nat.zero_add]; exact hitem js rfl i j t hj (.vec t js i j loc hj)) st hst).map _
    | _ => exact sound_reject _ _ _ _ hst
  | arr n t =>
    rw [deser_arr]
    cases j with
    | arr js =>
      simp only
      split
      · have h1 := runSame_sound env T root t exc loc segs js 0 (fun i j hj => by rw [Nat.zero_add]; exact hitem js rfl i j t hj (.arr n t js i j loc hj)) st hst
        generalize runSame env t exc (js.map (deser env root)) 0 loc segs st = r at h1 ⊢
        cases r with
        | ub => exact h1
        | threw s e => exact h1
        | done ok v st' => cases ok <;> exact h1
      · exact sound_reject _ _ _ _ hst
    | _ => exact sound_reject _ _ _ _ hst
  | set t =>
    rw [deser_set]
    cases j with
    | arr js =>
      exact (runSame_sound env T root t exc loc segs js 0 (fun i j hj => by rw [Nat.zero_add]; exact hitem js rfl i j t hj (.set t js i j loc hj)) st hst).map _
    | _ => exact sound_reject _ _ _ _ hst
  | map o t =>
    rw [deser_map]
    cases j with
    | obj ms =>
      exact (runEntries_sound env T root t exc loc segs ms 0 (fun i p hp => by
        rw [Nat.zero_add]; exact hfield ms rfl i p t (List.mem_of_getElem? hp) (.map o t ms i p loc hp)) st hst).map _
    | _ => exact sound_reject _ _ _ _ hst
  | dict t =>
    rw [deser_dict]
    cases j with
    | arr js =>
      exact (runSame_sound env T root _ exc loc segs js 0 (fun i j hj => by rw [Nat.zero_add]; exact hitem js rfl i j _ hj (.dict t js i j loc hj)) st hst).map _
    | _ => exact sound_reject _ _ _ _ hst
  | tuple ts =>
    rw [deser_tuple]
    cases j with
    | arr js =>
      simp only
      split
      · exact (runTuple_sound env T root exc loc segs js ts 0 (fun i j t hj ht => by
          rw [Nat.zero_add]; exact hitem js rfl i j t hj (.tuple ts js i t j loc ht hj)) target.components st hst).map _
      · exact sound_reject _ _ _ _ hst
    | _ => exact sound_reject _ _ _ _ hst
  | variant ts =>
    rw [deser_variant]
    have h1 := tryAll_sound env T root j loc segs ts (fun t ht => iht t (size_alt ht) hc loc (.child _ _ _ _ _ _ hn (.variant ts j t loc ht))) 0 st hst
    generalize tryAll env root j ts 0 loc segs st = r at h1 ⊢
    cases r with
    | ub => exact h1
    | threw s e => cases h1
    | done ok v st' =>
      cases ok with
      | true => exact h1
      | false => exact sound_reject _ _ _ _ h1
  | cls c =>
    rw [deser_cls]
    cases j with
    | obj ms =>
      exact (runMembers_sound env T root exc loc segs ms (env.members c) (fun m hm i j hf =>
        hfield ms rfl i (m.name, j) m.ty (findMember_mem hf) (.cls c ms m i j loc hm hf)) target.members true st hst).map _
    | _ => exact sound_reject _ _ _ _ hst
  | uptr t =>
    rw [deser_uptr]
    have h1 := iht t (by simp) hc loc (.child _ _ _ _ _ _ hn (.uptr t j loc)) exc (env.ctor t) segs st hst
    generalize deser env root j exc t (env.ctor t) loc segs st = r at h1 ⊢
    cases r with
    | ub => exact h1
    | threw s e => exact h1
    | done ok v st' => cases ok <;> exact h1
  | sptr t =>
    rw [deser_sptr]
    cases hr : refMember j with
    | some r =>
      obtain ⟨p, toks, rfl, hp, hq⟩ := hs t j loc r hn hr
      simp only [readRef, hp]
      cases hg : pointerGet root toks with
      | none => exact hst
      | some q =>
        simp only
        cases hl : st.get q.reverse with
        | none => exact hst
        | some e =>
          obtain ⟨a, t', v⟩ := e
          obtain ⟨j', hn', hr'⟩ := hst q.reverse a t' v hl
          simp only [if_pos (hq q t' j' hg hn' hr')]
          exact hst
    | none =>
      simp only
      have h1 := iht t (by simp) hc loc (.child _ _ _ _ _ _ hn (.sptr t j loc hr)) exc (env.ctor t) segs { st with next := st.next + 1 } hst
      generalize deser env root j exc t (env.ctor t) loc segs { st with next := st.next + 1 } = r at h1 ⊢
      cases r with
      | ub => exact h1
      | threw s e => exact h1
      | done ok v st' =>
        cases ok with
        | false => exact h1
        | true => exact TableOf.put h1 hn hr st.next v

end Verif.Core
