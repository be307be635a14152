import Verif.Breaks

/-!
# The readers on documents with references that do not fit

If all references are in order, then the readers refuse exactly the documents in which something does not have the form that is asked for.
-/

namespace Verif.Core
open Verif.Numeric Verif.EnumConv

/-! ## Specification -/

/-- The member is in the document and does not fit, or it is required and not in the document. -/
def BadHere (env : Env) (fields : List (Str × Json)) (m : Member) : Prop :=
  (∃ i j, findMember m.name fields = some (i, j) ∧ Misfits env m.ty j) ∨ (findMember m.name fields = none ∧ m.kind = .required)

/-- If a member of the class is bad, then the last member that matters is bad. -/
def LastCounts (env : Env) (c : Nat) (fields : List (Str × Json)) : Prop :=
  (∃ m ∈ env.members c, BadHere env fields m) →
    ∃ pre m post, env.members c = pre ++ m :: post ∧ BadHere env fields m ∧ ∀ m' ∈ post, Irrelevant fields m'

/-- No object of the document has a bad member that is masked by a later good one. -/
def Orderly (env : Env) (t : Ty) (j : Json) : Prop := ∀ c fields, Reach env t j (.cls c) (.obj fields) → LastCounts env c fields

/-- The same for objects inside variants. -/
def OrderlyAlts (env : Env) (t : Ty) (j : Json) : Prop := ∀ ts j', Reach env t j (.variant ts) j' → Orderly env (.variant ts) j'

theorem Orderly.child {env : Env} {t t' : Ty} {j j' : Json} {loc loc' : Loc} (h : Orderly env t j) (hc : ChildAt env t j loc t' j' loc') : Orderly env t' j' :=
  fun c fields hr => h c fields (.of_child hc hr)

theorem OrderlyAlts.child {env : Env} {t t' : Ty} {j j' : Json} {loc loc' : Loc} (h : OrderlyAlts env t j) (hc : ChildAt env t j loc t' j' loc') :
    OrderlyAlts env t' j' := fun ts j2 hr => h ts j2 (.of_child hc hr)

theorem Reach.trans {env : Env} {t t1 t2 : Ty} {j j1 j2 : Json} (h : Reach env t j t1 j1) (h' : Reach env t1 j1 t2 j2) : Reach env t j t2 j2 := by
  induction h' with
  | self => exact h
  | child _ _ _ _ _ _ _ hc ih => exact .child _ _ _ _ _ _ ih hc

theorem Orderly.alts {env : Env} {t : Ty} {j : Json} (h : Orderly env t j) : OrderlyAlts env t j :=
  fun _ _ hr c fields hr' => h c fields (hr.trans hr')

/-! ## Types without shared pointers -/

theorem misfits_fails (env : Env) : ∀ j t, Sharefree env t → Misfits env t j → Fails env.lower t.lower j := by
  apply lexInd
  intro j t ihj iht hs hm
  cases hm with
  | here _ _ h =>
    cases h with
    | prim p _ h => exact .prim _ _ fun pv hp => h pv (leaf_lowered hp)
    | array _ _ h h' => exact .array _ _ (by cases t <;> first | (cases h; done) | rfl) h'
    | object _ _ h h' => exact .object _ _ (by cases t <;> first | (cases h; done) | rfl) h'
    | arrLength n t js h => exact .arrLength _ _ _ h
    | tupleLength ts js h => exact .tupleLength _ _ (by rwa [lowers_length])
    | missing c ms m hm hf hk => exact .missing c ms m.lower (List.mem_map.2 ⟨m, hm, rfl⟩) hf hk
    | noAlternative => exact .variant _ _ fun t ht => by cases ht
  | component _ _ loc n t' j' loc' hn hm =>
    have hs' := hs.inner hn.inner
    cases hn with
    | vec t js i j _ h => exact .vec _ _ j' (List.mem_of_getElem? h) (ihj _ (size_item (List.mem_of_getElem? h)) _ hs' hm)
    | arr m t js i j _ h => exact .arr _ _ _ j' (List.mem_of_getElem? h) (ihj _ (size_item (List.mem_of_getElem? h)) _ hs' hm)
    | set t js i j _ h => exact .set _ _ j' (List.mem_of_getElem? h) (ihj _ (size_item (List.mem_of_getElem? h)) _ hs' hm)
    | dict t js i j _ h => exact .dict _ _ j' (List.mem_of_getElem? h) (ihj _ (size_item (List.mem_of_getElem? h)) _ hs' hm)
    | map o t ms i p _ h => exact .map _ _ _ p (List.mem_of_getElem? h) (ihj _ (size_field (List.mem_of_getElem? h)) _ hs' hm)
    | tuple ts js i t j _ ht h =>
      exact .tuple _ _ n t'.lower j' (by rw [lowers_map, List.getElem?_map, ht]; rfl) h (ihj _ (size_item (List.mem_of_getElem? h)) _ hs' hm)
    | variant ts _ i t _ hc =>
      have hmem := List.mem_of_getElem? hc.1
      have hf := iht t' (size_alt hmem) hs' hm
      refine .variant _ _ fun t2 ht2 => ?_
      rw [lowers_map] at ht2
      obtain ⟨u, hu, rfl⟩ := List.mem_map.1 ht2
      obtain ⟨k, hk⟩ := List.mem_iff_getElem?.1 hu
      by_cases hki : k < i
      · exact hc.2.1 k u hki hk
      · have hlen := (List.getElem?_eq_some_iff.1 hk).1
        have hi : k = i := by
          rcases hc.2.2 with h | h
          · omega
          · exact absurd hf h
        subst hi
        rw [hc.1] at hk
        cases hk
        exact hf
    | cls c ms _ m i j _ hm1 hf =>
      exact .member c ms m.lower i j' (List.mem_map.2 ⟨m, List.mem_of_getElem? hm1, rfl⟩) hf (ihj _ (size_field (findMember_mem hf)) _ hs' hm)
    | uptr => exact .uptr _ _ (iht _ (by simp) hs' hm)
    | sptr => exact absurd .self (hs _)

theorem misfits_iff (env : Env) (j : Json) (t : Ty) (hs : Sharefree env t) : Misfits env t j ↔ Fails env.lower t.lower j :=
  ⟨misfits_fails env j t hs, fails_misfits env j t hs⟩

theorem traceless_iff {env : Env} {j : Json} {t : Ty} (ht : Traceless env t j) : Misfits env t j ↔ Fails env.lower t.lower j := by
  refine ⟨fun h => ?_, traceless_misfits ht⟩
  rcases ht with ht | ⟨u, rfl, hu, hr⟩
  · exact misfits_fails env j t ht h
  · cases h with
    | here _ _ h =>
      cases h with
      | array _ _ h => cases h
      | object _ _ h => cases h
    | component _ _ _ _ _ _ _ hn hm =>
      cases hn
      exact .uptr _ _ (misfits_fails env j u hu hm)

theorem part_reach {env : Env} {t t' : Ty} {j j' : Json} (hs : Sharefree env t) (h : Part env.lower t j t' j') : Reach env t j t' j' ∧ Sharefree env t' := by
  induction h with
  | self => exact ⟨.self, hs⟩
  | child t1 j1 t2 j2 _ hc ih =>
    obtain ⟨hr, hs1⟩ := ih
    have step : ∀ {loc}, ChildAt env t1 j1 [] t2 j2 loc → Reach env t j t2 j2 ∧ Sharefree env t2 :=
      fun h => ⟨.child _ _ _ _ _ _ hr h, hs1.inner h.types⟩
    cases hc with
    | vec _ js _ h => obtain ⟨i, hi⟩ := List.mem_iff_getElem?.1 h; exact step (.vec _ _ i _ _ hi)
    | arr _ _ js _ h => obtain ⟨i, hi⟩ := List.mem_iff_getElem?.1 h; exact step (.arr _ _ _ i _ _ hi)
    | set _ js _ h => obtain ⟨i, hi⟩ := List.mem_iff_getElem?.1 h; exact step (.set _ _ i _ _ hi)
    | dict _ js _ h => obtain ⟨i, hi⟩ := List.mem_iff_getElem?.1 h; exact step (.dict _ _ i _ _ hi)
    | map _ _ ms p h => obtain ⟨i, hi⟩ := List.mem_iff_getElem?.1 h; exact step (.map _ _ _ i _ _ hi)
    | tuple ts js i _ _ h h' => exact step (.tuple ts js i _ _ _ h h')
    | variant ts _ _ h => exact step (.variant ts _ _ _ h)
    | cls c ms m' i _ hm hf =>
      obtain ⟨m, hm1, rfl⟩ := List.mem_map.1 hm
      have : m.ty.lower = m.ty := sharefree_lower env m.ty (hs1.inner (.cls c m hm1))
      show Reach env t j m.ty.lower j2 ∧ Sharefree env m.ty.lower
      rw [this]
      have h : ChildAt env (.cls c) (.obj ms) [] m.ty j2 (i :: []) := .cls c ms m i j2 [] hm1 hf
      exact ⟨.child _ _ _ _ _ _ hr h, hs1.inner h.types⟩
    | uptr => exact step (.uptr _ _ _)

theorem sharefree_unmasked {env : Env} {t : Ty} {j : Json} (hs : Sharefree env t) (ho : Orderly env t j) : Unmasked env.lower t.lower j := by
  rw [sharefree_lower env t hs]
  intro c fields hp
  obtain ⟨hr, hsc⟩ := part_reach hs hp
  have bad : ∀ m ∈ env.members c, BadMember env.lower fields m.lower ↔ BadHere env fields m := by
    intro m hm
    have hsm : Sharefree env m.ty := hsc.inner (.cls c m hm)
    refine or_congr ⟨?_, ?_⟩ Iff.rfl
    · rintro ⟨i, j, h1, h2⟩
      exact ⟨i, j, h1, fails_misfits env j m.ty hsm h2⟩
    · rintro ⟨i, j, h1, h2⟩
      exact ⟨i, j, h1, misfits_fails env j m.ty hsm h2⟩
  rintro ⟨m', hm', hb⟩
  obtain ⟨m, hm, rfl⟩ := List.mem_map.1 hm'
  obtain ⟨pre, m2, post, h1, h2, h3⟩ := ho c fields hr ⟨m, hm, (bad m hm).1 hb⟩
  refine ⟨pre.map Member.lower, m2.lower, post.map Member.lower, ?_, (bad m2 (by rw [h1]; simp)).2 h2, ?_⟩
  · show (env.members c).map Member.lower = _
    rw [h1]
    simp
  · intro m3 hm3
    obtain ⟨m4, hm4, rfl⟩ := List.mem_map.1 hm3
    exact h3 m4 hm4

theorem part_uptr {env : Env} {t t' : Ty} {j j' : Json} (h : Part env (.uptr t) j t' j') : (t' = .uptr t ∧ j' = j) ∨ Part env t j t' j' := by
  induction h with
  | self => exact .inl ⟨rfl, rfl⟩
  | child t1 j1 t2 j2 _ hc ih =>
    rcases ih with ⟨rfl, rfl⟩ | ih
    · cases hc
      exact .inr .self
    · exact .inr (.child _ _ _ _ ih hc)

theorem traceless_unmasked {env : Env} {t : Ty} {j : Json} (ht : Traceless env t j) (ho : Orderly env t j) : Unmasked env.lower t.lower j := by
  rcases ht with ht | ⟨u, rfl, hu, hr⟩
  · exact sharefree_unmasked ht ho
  · intro c fields hp
    rcases part_uptr hp with ⟨h, -⟩ | h
    · cases h
    · exact sharefree_unmasked hu (ho.child (ChildAt.sptr (env := env) u j [] hr)) c fields h

theorem OrderlyAlts.unmasked {env : Env} {t : Ty} {j : Json} (h : OrderlyAlts env t j) : AltsUnmasked env t j :=
  fun ts j' hr t' ht' htr => traceless_unmasked htr ((h ts j' hr).child (ChildAt.variant (env := env) ts j' t' [] ht'))

theorem sharefree_sound {env : Env} {root : Json} {D : Loc → Ty → Prop} {t : Ty} {j : Json} {loc : Loc} (hs : Sharefree env t) : ¬ Dangles env root D t j loc := by
  intro h
  induction h with
  | component _ _ _ _ _ _ _ _ hn _ ih => exact ih (hs.inner hn.inner)
  | reference => exact hs _ .self

theorem traceless_sound {env : Env} {root : Json} {D : Loc → Ty → Prop} {t : Ty} {j : Json} {loc : Loc} (ht : Traceless env t j) : ¬ Dangles env root D t j loc := by
  rcases ht with ht | ⟨u, rfl, hu, hr⟩
  · exact sharefree_sound ht
  · intro h
    cases h with
    | component _ _ _ _ _ _ _ _ hn h =>
      cases hn
      exact sharefree_sound hu h
    | reference _ _ _ _ _ hr' => rw [hr] at hr'; cases hr'

/-! ## Places of shared objects -/

/-- At each place there is at most one object. -/
def Func (D : Loc → Ty → Prop) : Prop := ∀ q u u', D q u → D q u' → u = u'

theorem holds_func (env : Env) (hd : env.DistinctNames) : ∀ j t, Unnested env t → ∀ loc, Func (Holds env t j loc) := by
  apply lexInd
  intro j t ihj iht hun loc q u u' h h'
  cases h with
  | here _ _ _ hr =>
    cases h' with
    | here => rfl
    | inside _ _ _ _ _ _ _ _ _ hn hh =>
      cases hn
      exact absurd rfl (hh.away (hun u .self))
  | inside _ _ _ n t1 j1 loc1 _ _ hn hh =>
    cases h' with
    | here _ _ _ hr =>
      cases hn
      exact absurd rfl (hh.away (hun _ .self))
    | inside _ _ _ n' t2 j2 loc2 _ _ hn' hh' =>
      by_cases hne : n = n'
      · subst hne
        obtain ⟨rfl, rfl, rfl⟩ := hn.unique hn'
        rcases hn.smaller with hlt | ⟨rfl, hlt⟩
        · exact ihj j1 hlt t1 (hun.inner hn.inner) loc1 q u u' hh hh'
        · exact iht t1 hlt (hun.inner hn.inner) loc1 q u u' hh hh'
      · obtain ⟨i, i', rfl, rfl, hii⟩ := hn.apart hd hn' hne
        exact absurd (suffix_cons_inj hh.under hh'.under) hii

theorem Sooner.holds {env : Env} {t u : Ty} {j : Json} {loc q : Loc} {n : Nat} (h : Sooner env t j loc n q u) : Holds env t j loc q u := by
  obtain ⟨k, t', j', loc', _, h1, h2⟩ := h
  exact .inside _ _ _ k t' j' loc' q u h1 h2

theorem Func.component {env : Env} (hd : env.DistinctNames) {D : Loc → Ty → Prop} {t : Ty} {j : Json} {loc : Loc} (hun : Unnested env t) (hf : Func D) (hc : Clear D loc)
    (n : Nat) : Func fun q u => D q u ∨ Sooner env t j loc n q u := by
  rintro q u u' (h | h) (h' | h')
  · exact hf q u u' h h'
  · exact absurd h'.holds.under (hc q u h)
  · exact absurd h.holds.under (hc q u' h')
  · exact holds_func env hd j t hun loc q u u' h.holds h'.holds

/-- All entries of the table are among these objects. -/
def Covered (st : DState) (D : Loc → Ty → Prop) : Prop := ∀ q a u v, st.get q = some (a, u, v) → D q u

theorem Covered.mono {st : DState} {D D' : Loc → Ty → Prop} (h : Covered st D) (hd : ∀ q u, D q u → D' q u) : Covered st D' :=
  fun q a u v hg => hd q u (h q a u v hg)

theorem Tab.covered {st : DState} {D : Loc → Ty → Prop} (h : Tab st D) : Covered st D := fun q a u v hg => (h q u).1 ⟨a, v, hg⟩

/-! ## Without exceptions -/

/-- What is to be shown of a component. -/
def Runs (env : Env) (root : Json) (Q : Nat → DState → Prop) (n : Nat) (t : Ty) (j : Json) (loc : Loc) : Prop :=
  ∀ st, Q n st → ∀ target segs, ∃ ok w st', deser env root j false t target loc segs st = .done ok w st' ∧ Q (n + 1) st' ∧ (Misfits env t j → ok = false)

theorem runs_all {env : Env} {root : Json} {t : Ty} {loc : Loc} (Q : Nat → DState → Prop) (segs : List Seg) (js : List Json) : ∀ (k : Nat),
    (∀ (i : Nat) (j : Json), js[i]? = some j → Runs env root Q (k + i) t j ((k + i) :: loc)) → ∀ st, Q k st →
    ∃ ok vs st' n, runSame env t false (js.map (deser env root)) k loc segs st = .done ok vs st' ∧ Q n st' ∧ ((∃ j ∈ js, Misfits env t j) → ok = false) := by
  induction js with
  | nil => intro k _ st hq; exact ⟨_, _, _, k, rfl, hq, fun ⟨j, h, _⟩ => by cases h⟩
  | cons j js ih =>
    intro k h st hq
    obtain ⟨ok, w, st1, h1, q1, m1⟩ := h 0 j rfl st hq (env.fresh t) (.index k :: segs)
    simp only [List.map_cons, runSame]
    rw [Nat.add_zero] at h1
    rw [h1]
    cases ok with
    | false => exact ⟨_, _, _, _, rfl, q1, fun _ => rfl⟩
    | true =>
      obtain ⟨ok, vs, st2, n, h2, q2, m2⟩ := ih (k + 1) (fun i j hj => by have := h (i + 1) j hj; rwa [show k + (i + 1) = k + 1 + i by omega] at this) st1 q1
      simp only [h2]
      refine ⟨_, _, _, _, rfl, q2, fun ⟨j', hj', hm⟩ => m2 ?_⟩
      rcases List.mem_cons.1 hj' with rfl | hj'
      · cases m1 hm
      · exact ⟨j', hj', hm⟩

theorem runs_entries {env : Env} {root : Json} {t : Ty} {loc : Loc} (Q : Nat → DState → Prop) (segs : List Seg) (ms : List (Str × Json)) : ∀ (k : Nat),
    (∀ (i : Nat) (p : Str × Json), ms[i]? = some p → Runs env root Q (k + i) t p.2 ((k + i) :: loc)) → ∀ st, Q k st →
    ∃ ok vs st' n, runEntries env t false (ms.map fun p => (p.1, deser env root p.2)) k loc segs st = .done ok vs st' ∧ Q n st' ∧
      ((∃ p ∈ ms, Misfits env t p.2) → ok = false) := by
  induction ms with
  | nil => intro k _ st hq; exact ⟨_, _, _, k, rfl, hq, fun ⟨j, h, _⟩ => by cases h⟩
  | cons p ms ih =>
    intro k h st hq
    obtain ⟨ok, w, st1, h1, q1, m1⟩ := h 0 p rfl st hq (env.fresh t) (.name (cstr p.1) :: segs)
    simp only [List.map_cons, runEntries]
    rw [Nat.add_zero] at h1
    rw [h1]
    cases ok with
    | false => exact ⟨_, _, _, _, rfl, q1, fun _ => rfl⟩
    | true =>
      obtain ⟨ok, vs, st2, n, h2, q2, m2⟩ := ih (k + 1) (fun i j hj => by have := h (i + 1) j hj; rwa [show k + (i + 1) = k + 1 + i by omega] at this) st1 q1
      simp only [h2]
      refine ⟨_, _, _, _, rfl, q2, fun ⟨j', hj', hm⟩ => m2 ?_⟩
      rcases List.mem_cons.1 hj' with rfl | hj'
      · cases m1 hm
      · exact ⟨j', hj', hm⟩

theorem runs_each {env : Env} {root : Json} {loc : Loc} (Q : Nat → DState → Prop) (segs : List Seg) (js : List Json) : ∀ (ts : List Ty) (k : Nat),
    (∀ (i : Nat) (t : Ty) (j : Json), ts[i]? = some t → js[i]? = some j → Runs env root Q (k + i) t j ((k + i) :: loc)) → ∀ targets st, Q k st →
    ∃ ok vs st' n, runTuple env false (js.map (deser env root)) ts targets k loc segs st = .done ok vs st' ∧ Q n st' ∧
      ((∃ (i : Nat) (t : Ty) (j : Json), ts[i]? = some t ∧ js[i]? = some j ∧ Misfits env t j) → ok = false) := by
  induction js with
  | nil =>
    intro ts k _ targets st hq
    refine ⟨true, [], st, k, ?_, hq, fun ⟨i, t, j, _, h, _⟩ => by simp at h⟩
    cases ts <;> rfl
  | cons j js ih =>
    intro ts k h targets st hq
    cases ts with
    | nil => exact ⟨true, [], st, k, rfl, hq, fun ⟨i, t, j, h, _⟩ => by simp at h⟩
    | cons t ts =>
      obtain ⟨ok, w, st1, h1, q1, m1⟩ := h 0 t j rfl rfl st hq (targets.headD (env.fresh t)) (.index k :: segs)
      simp only [List.map_cons, runTuple]
      rw [Nat.add_zero] at h1
      rw [h1]
      cases ok with
      | false => exact ⟨_, _, _, _, rfl, q1, fun _ => rfl⟩
      | true =>
        obtain ⟨ok, vs, st2, n, h2, q2, m2⟩ := ih ts (k + 1) (fun i t j ht hj => by have := h (i + 1) t j ht hj; rwa [show k + (i + 1) = k + 1 + i by omega] at this)
          targets.tail st1 q1
        simp only [h2]
        refine ⟨_, _, _, _, rfl, q2, fun ⟨i, t', j', ht', hj', hm⟩ => m2 ?_⟩
        cases i with
        | zero => cases ht'; cases hj'; cases m1 hm
        | succ i => exact ⟨i, t', j', ht', hj', hm⟩

theorem runs_members {env : Env} {root : Json} {fields : List (Str × Json)} {loc : Loc} (Q : Nat → DState → Prop) (segs : List Seg) (ms : List Member) : ∀ (k : Nat),
    (∀ (n : Nat) (m : Member), ms[n]? = some m → (findMember m.name fields = none → ∀ st, Q (k + n) st → Q (k + n + 1) st) ∧
      ∀ i j, findMember m.name fields = some (i, j) → Runs env root Q (k + n) m.ty j (i :: loc)) →
    ∀ targets res st, Q k st → ∃ ok vs st' n, runMembers env false (fields.map fun p => (p.1, deser env root p.2)) loc segs ms targets res st = .done ok vs st' ∧ Q n st' ∧
      ((∀ m ∈ ms, Irrelevant fields m) → ok = res) ∧
      ∀ pre m post, ms = pre ++ m :: post → BadHere env fields m → (∀ m' ∈ post, Irrelevant fields m') → ok = false := by
  induction ms with
  | nil =>
    intro k _ targets res st hq
    exact ⟨_, _, _, k, rfl, hq, fun _ => rfl, fun pre m post h => by cases pre <;> cases h⟩
  | cons m ms ih =>
    intro k h targets res st hq
    have ih := ih (k + 1) fun i m hm => by have := h (i + 1) m hm; rwa [show k + (i + 1) = k + 1 + i by omega] at this
    obtain ⟨h1, h2⟩ := h 0 m rfl
    simp only [runMembers, findMember_map]
    cases hf : findMember m.name fields with
    | none =>
      have hq' := h1 hf st hq
      cases hk : m.kind with
      | required =>
        obtain ⟨ok, vs, st', n, e, q, r1, r2⟩ := ih targets.tail false st hq'
        simp only [Option.map_none, Bool.false_eq_true, if_false, e]
        refine ⟨_, _, _, _, rfl, q, fun hi => absurd hk (hi m (by simp)).2, fun pre m' post hp hb hi => ?_⟩
        cases pre with
        | nil =>
          cases hp
          exact r1 hi
        | cons _ pre =>
          cases hp
          exact r2 pre m' post rfl hb hi
      | optional =>
        obtain ⟨ok, vs, st', n, e, q, r1, r2⟩ := ih targets.tail res st hq'
        simp only [Option.map_none, e]
        refine ⟨_, _, _, _, rfl, q, fun hi => r1 fun m hm => hi m (by simp [hm]), fun pre m' post hp hb hi => ?_⟩
        cases pre with
        | nil =>
          cases hp
          rcases hb with ⟨i, j, hb, _⟩ | ⟨_, hb⟩
          · rw [hf] at hb; cases hb
          · rw [hk] at hb; cases hb
        | cons _ pre =>
          cases hp
          exact r2 pre m' post rfl hb hi
      | default =>
        obtain ⟨ok, vs, st', n, e, q, r1, r2⟩ := ih targets.tail res st hq'
        simp only [Option.map_none, e]
        refine ⟨_, _, _, _, rfl, q, fun hi => r1 fun m hm => hi m (by simp [hm]), fun pre m' post hp hb hi => ?_⟩
        cases pre with
        | nil =>
          cases hp
          rcases hb with ⟨i, j, hb, _⟩ | ⟨_, hb⟩
          · rw [hf] at hb; cases hb
          · rw [hk] at hb; cases hb
        | cons _ pre =>
          cases hp
          exact r2 pre m' post rfl hb hi
    | some p =>
      obtain ⟨i, j⟩ := p
      obtain ⟨ok1, w, st1, e1, q1, m1⟩ := h2 i j hf st hq (if m.kind = .optional then env.fresh m.ty else targets.headD (env.fresh m.ty)) (Seg.name (cstr m.name) :: segs)
      obtain ⟨ok, vs, st', n, e, q, r1, r2⟩ := ih targets.tail ok1 st1 q1
      simp only [Option.map_some, e1, e]
      refine ⟨_, _, _, _, rfl, q, fun hi => ?_, fun pre m' post hp hb hi => ?_⟩
      · have := (hi m (by simp)).1
        rw [hf] at this
        cases this
      · cases pre with
        | nil =>
          cases hp
          rcases hb with ⟨i', j', hb, hm⟩ | ⟨hb, _⟩
          · rw [hf] at hb
            cases hb
            rw [r1 hi, m1 hm]
          · rw [hf] at hb; cases hb
        | cons _ pre =>
          cases hp
          exact r2 pre m' post rfl hb hi

theorem tryAll_chosen (env : Env) (root j : Json) (t : Ty) (ok : Bool) (v : Val) (loc : Loc) (segs : List Seg) (st' : DState) : ∀ (i : Nat) (ts : List Ty) (n : Nat) (st : DState),
    ts[i]? = some t → (ok = false → i + 1 = ts.length) →
    (∀ k t', k < i → ts[k]? = some t' → ∀ st, ∃ w, deser env root j false t' (env.fresh t') loc segs st = .done false w { st with next := st.next + wasted [t'] }) →
    deser env root j false t (env.fresh t) loc segs { st with next := st.next + wasted (ts.take i) } = .done ok v st' →
    ∃ w, tryAll env root j ts n loc segs st = .done ok w st' := by
  intro i
  induction i with
  | zero =>
    intro ts n st h1 hl _ h3
    cases ts with
    | nil => cases h1
    | cons t' ts =>
      cases h1
      have h3 : deser env root j false t (env.fresh t) loc segs st = .done ok v st' := h3
      rw [tryAll, h3]
      cases ok with
      | true => exact ⟨_, rfl⟩
      | false =>
        have : ts = [] := by simpa using hl rfl
        subst this
        exact ⟨_, rfl⟩
  | succ i ih =>
    intro ts n st h1 hl h2 h3
    cases ts with
    | nil => cases h1
    | cons t' ts =>
      obtain ⟨w, hw⟩ := h2 0 t' (by omega) rfl st
      rw [tryAll, hw]
      have : wasted ((t' :: ts).take (i + 1)) = wasted [t'] + wasted (ts.take i) := wasted_append [t'] (ts.take i)
      rw [this] at h3
      refine ih ts (n + 1) _ h1 (fun h => by have := hl h; simp at this; omega) (fun k t' hk ht' => h2 (k + 1) t' (by omega) ht') ?_
      rw [← Nat.add_assoc] at h3
      exact h3

/-- An alternative that leaves no trace and does not fail is taken. -/
theorem traceless_taken (env : Env) (hd : env.DistinctNames) (root j : Json) (t : Ty) (ht : Traceless env t j) (hc : Calm env j) (htame : Tame env t j)
    (hun : Unnested env t) (ha : AltsUnmasked env t j) (hf : ¬ Fails env.lower t.lower j) (loc : Loc) (D : Loc → Ty → Prop) (st : DState) (hcov : Covered st D)
    (hclear : Clear D loc) (exc : Bool) (target : Val) (segs : List Seg) : ∃ v st', deser env root j exc t target loc segs st = .done true v st' := by
  let D' : Loc → Ty → Prop := fun q u => ∃ a v, st.get q = some (a, u, v)
  have hclear' : Clear D' loc := fun q u ⟨a, v, h⟩ => hclear q u (hcov q a u v h)
  have hb : ¬ Breaks env root D' t j loc := by
    rintro (h | h)
    · exact hf ((traceless_iff ht).1 h)
    · exact traceless_sound ht h
  obtain ⟨v, st', h⟩ := (traced env hd root j t htame hun loc D' st (fun _ _ => Iff.rfl) hclear').2 hb target
  exact ⟨v, st', conveys_read env root j t hc ha loc target st v st' h exc segs⟩

/-- What is to be shown of a node. -/
def Settles (env : Env) (root j : Json) (t : Ty) : Prop := ∀ loc D st, Covered st D → Func D → Clear D loc → ¬ Dangles env root D t j loc → ∀ target segs,
  ∃ ok w st', deser env root j false t target loc segs st = .done ok w st' ∧ Covered st' (fun q u => D q u ∨ Holds env t j loc q u) ∧ (Misfits env t j → ok = false)

theorem settles (env : Env) (hd : env.DistinctNames) (root : Json) : ∀ j t, Calm env j → Tame env t j → Unnested env t → Orderly env t j → Settles env root j t := by
  apply lexInd
  intro j t ihj iht hcalm htame hun ho loc D st hcov hfun hclear hnd target segs
  have child : ∀ {n t' j' loc'}, Nth env t j loc n t' j' loc' → Calm env j' → Settles env root j' t' := by
    intro n t' j' loc' h hc
    rcases h.smaller with hlt | ⟨rfl, hlt⟩
    · exact ihj j' hlt t' hc (htame.child h.child) (hun.inner h.inner) (ho.child h.child)
    · exact iht t' hlt hc (htame.child h.child) (hun.inner h.inner) (ho.child h.child)
  let E : Nat → Loc → Ty → Prop := fun n q u => D q u ∨ Sooner env t j loc n q u
  let Q : Nat → DState → Prop := fun n st => Covered st (E n)
  have q0 : Q 0 st := hcov.mono fun _ _ => .inl
  have comp : ∀ {n t' j' loc'}, Nth env t j loc n t' j' loc' → Calm env j' → Runs env root Q n t' j' loc' := by
    intro n t' j' loc' h hc st hq target segs
    obtain ⟨ok, w, st', h1, h2, h3⟩ := child h hc loc' (E n) st hq (hfun.component hd hun hclear n) (hclear.component hd h)
      (fun h' => hnd (.component _ _ _ _ n t' j' loc' h h')) target segs
    refine ⟨ok, w, st', h1, h2.mono fun q u hq => ?_, h3⟩
    show D q u ∨ _
    rw [Sooner.succ h, ← or_assoc]
    exact hq
  have fin : ∀ {n st'}, Q n st' → Covered st' fun q u => D q u ∨ Holds env t j loc q u := fun h => h.mono fun q u hq => hq.imp id Sooner.holds
  have reject : ∀ {e w}, ∃ ok w' st', (DRes.reject false segs e w st : DRes Val) = .done ok w' st' ∧ Covered st' (fun q u => D q u ∨ Holds env t j loc q u) ∧
      (Misfits env t j → ok = false) := fun {e w} => ⟨false, w, st, rfl, fin q0, fun _ => rfl⟩
  cases t with
  | prim p =>
    rw [deser_prim]
    cases hp : desPrim env p j with
    | ub => exact absurd hp (desPrim_calm env p j hcalm)
    | reject e => exact reject
    | ok pv =>
      refine ⟨_, _, _, rfl, fin q0, fun hm => ?_⟩
      cases hm with
      | here _ _ h =>
        cases h with
        | prim _ _ h => exact absurd ((desPrim_ok env p j pv).1 hp) (h pv)
        | array _ _ h => cases h
        | object _ _ h => cases h
      | component _ _ _ _ _ _ _ hn => cases hn
  | vec t =>
    rw [deser_vec]
    cases j with
    | arr js =>
      obtain ⟨ok, vs, st', n, h1, h2, h3⟩ := runs_all Q segs js 0
        (fun i j hj => by rw [Nat.zero_add]; exact comp (.vec t js i j loc hj) (hcalm.item (List.mem_of_getElem? hj))) st q0
      simp only [h1]
      refine ⟨_, _, _, rfl, fin h2, fun hm => h3 ?_⟩
      cases hm with
      | here _ _ h =>
        cases h with
        | array _ _ _ h => exact absurd rfl (h js)
        | object _ _ h => cases h
      | component _ _ _ _ _ _ _ hn hm => cases hn with | vec _ _ _ _ _ h => exact ⟨_, List.mem_of_getElem? h, hm⟩
    | _ => exact reject
  | arr m t =>
    rw [deser_arr]
    cases j with
    | arr js =>
      simp only
      split
      · next hlen =>
        obtain ⟨ok, vs, st', n, h1, h2, h3⟩ := runs_all Q segs js 0
          (fun i j hj => by rw [Nat.zero_add]; exact comp (.arr m t js i j loc hj) (hcalm.item (List.mem_of_getElem? hj))) st q0
        have hm : Misfits env (.arr m t) (.arr js) → ok = false := by
          intro hm
          refine h3 ?_
          cases hm with
          | here _ _ h =>
            cases h with
            | array _ _ _ h => exact absurd rfl (h js)
            | object _ _ h => cases h
            | arrLength _ _ _ h => exact absurd hlen h
          | component _ _ _ _ _ _ _ hn hm => cases hn with | arr _ _ _ _ _ _ h => exact ⟨_, List.mem_of_getElem? h, hm⟩
        simp only [h1]
        cases ok <;> exact ⟨_, _, _, rfl, fin h2, hm⟩
      · exact reject
    | _ => exact reject
  | set t =>
    rw [deser_set]
    cases j with
    | arr js =>
      obtain ⟨ok, vs, st', n, h1, h2, h3⟩ := runs_all Q segs js 0
        (fun i j hj => by rw [Nat.zero_add]; exact comp (.set t js i j loc hj) (hcalm.item (List.mem_of_getElem? hj))) st q0
      simp only [h1]
      refine ⟨_, _, _, rfl, fin h2, fun hm => h3 ?_⟩
      cases hm with
      | here _ _ h =>
        cases h with
        | array _ _ _ h => exact absurd rfl (h js)
        | object _ _ h => cases h
      | component _ _ _ _ _ _ _ hn hm => cases hn with | set _ _ _ _ _ h => exact ⟨_, List.mem_of_getElem? h, hm⟩
    | _ => exact reject
  | dict t =>
    rw [deser_dict]
    cases j with
    | arr js =>
      obtain ⟨ok, vs, st', n, h1, h2, h3⟩ := runs_all Q segs js 0
        (fun i j hj => by rw [Nat.zero_add]; exact comp (.dict t js i j loc hj) (hcalm.item (List.mem_of_getElem? hj))) st q0
      simp only [h1]
      refine ⟨_, _, _, rfl, fin h2, fun hm => h3 ?_⟩
      cases hm with
      | here _ _ h =>
        cases h with
        | array _ _ _ h => exact absurd rfl (h js)
        | object _ _ h => cases h
      | component _ _ _ _ _ _ _ hn hm => cases hn with | dict _ _ _ _ _ h => exact ⟨_, List.mem_of_getElem? h, hm⟩
    | _ => exact reject
  | map o t =>
    rw [deser_map]
    cases j with
    | obj ms =>
      obtain ⟨ok, vs, st', n, h1, h2, h3⟩ := runs_entries Q segs ms 0
        (fun i p hp => by rw [Nat.zero_add]; exact comp (.map o t ms i p loc hp) (hcalm.field (List.mem_of_getElem? hp))) st q0
      simp only [h1]
      refine ⟨_, _, _, rfl, fin h2, fun hm => h3 ?_⟩
      cases hm with
      | here _ _ h =>
        cases h with
        | array _ _ h => cases h
        | object _ _ _ h => exact absurd rfl (h ms)
      | component _ _ _ _ _ _ _ hn hm => cases hn with | map _ _ _ _ _ _ h => exact ⟨_, List.mem_of_getElem? h, hm⟩
    | _ => exact reject
  | tuple ts =>
    rw [deser_tuple]
    cases j with
    | arr js =>
      simp only
      split
      · next hlen =>
        obtain ⟨ok, vs, st', n, h1, h2, h3⟩ := runs_each Q segs js ts 0
          (fun i t j ht hj => by rw [Nat.zero_add]; exact comp (.tuple ts js i t j loc ht hj) (hcalm.item (List.mem_of_getElem? hj))) target.components st q0
        simp only [h1]
        refine ⟨_, _, _, rfl, fin h2, fun hm => h3 ?_⟩
        cases hm with
        | here _ _ h =>
          cases h with
          | array _ _ _ h => exact absurd rfl (h js)
          | object _ _ h => cases h
          | tupleLength _ _ h => exact absurd hlen h
        | component _ _ _ _ _ _ _ hn hm => cases hn with | tuple _ _ _ _ _ _ h h' => exact ⟨_, _, _, h, h', hm⟩
      · exact reject
    | _ => exact reject
  | variant ts =>
    rw [deser_variant]
    by_cases hts : ts = []
    · subst hts
      exact reject
    · obtain ⟨i, t, hch⟩ := chosen_exists env ts j hts
      have hmem := List.mem_of_getElem? hch.1
      have hlt := (List.getElem?_eq_some_iff.1 hch.1).1
      have hn : Nth env (.variant ts) j loc 0 t j loc := .variant ts j i t loc hch
      obtain ⟨ok, w, st', h1, h2, h3⟩ := comp hn hcalm { st with next := st.next + wasted (ts.take i) } q0 (env.fresh t) segs
      have hlast : ok = false → i + 1 = ts.length := by
        intro hok
        by_contra hne
        have hf := hch.2.2.resolve_left hne
        obtain ⟨v, st2, h⟩ := traceless_taken env hd root j t (htame ts j .self i t (by omega) hch.1) hcalm (htame.child hn.child) (hun.inner hn.inner)
          (ho.child hn.child).alts.unmasked hf loc D { st with next := st.next + wasted (ts.take i) } hcov hclear false (env.fresh t) segs
        rw [h1] at h
        cases h
        cases hok
      obtain ⟨w', hw'⟩ := tryAll_chosen env root j t ok w loc segs st' i ts 0 st hch.1 hlast (fun k t' hk ht' st => by
        exact traceless_refused env root j t' (htame ts j .self k t' (by omega) ht') hcalm (hch.2.1 k t' hk ht')
          (ho.alts.unmasked ts j .self t' (List.mem_of_getElem? ht') (htame ts j .self k t' (by omega) ht')) _ loc segs st) h1
      have hm : Misfits env (.variant ts) j → ok = false := by
        intro hm
        refine h3 ?_
        cases hm with
        | here _ _ h =>
          cases h with
          | array _ _ h => cases h
          | object _ _ h => cases h
          | noAlternative => exact absurd rfl hts
        | component _ _ _ _ _ _ _ hn' hm =>
          cases hn' with
          | variant _ _ i' _ _ hch' =>
            have := hch.unique hch'
            subst this
            have e := hch.1
            rw [hch'.1] at e
            cases e
            exact hm
      rw [hw']
      cases ok with
      | true => exact ⟨_, _, _, rfl, fin h2, hm⟩
      | false => exact ⟨_, _, _, rfl, fin h2, hm⟩
  | cls c =>
    rw [deser_cls]
    cases j with
    | obj ms =>
      obtain ⟨ok, vs, st', n, h1, h2, h3, h4⟩ := runs_members Q segs (env.members c) 0 (fun n m hm => by
        rw [Nat.zero_add]
        refine ⟨fun _ st hq => hq.mono fun q u h => h.imp id fun ⟨k, t', j', loc', hk, h⟩ => ⟨k, t', j', loc', by omega, h⟩, fun i j hf => ?_⟩
        exact comp (.cls c ms n m i j loc hm hf) (hcalm.field (findMember_mem hf))) target.members true st q0
      simp only [h1]
      refine ⟨_, _, _, rfl, fin h2, fun hm => ?_⟩
      have : ∃ m ∈ env.members c, BadHere env ms m := by
        cases hm with
        | here _ _ h =>
          cases h with
          | array _ _ h => cases h
          | object _ _ _ h => exact absurd rfl (h ms)
          | missing _ _ m h1 h2 h3 => exact ⟨m, h1, .inr ⟨h2, h3⟩⟩
        | component _ _ _ _ _ _ _ hn hm => cases hn with | cls _ _ _ m i _ _ h h' => exact ⟨m, List.mem_of_getElem? h, .inl ⟨i, _, h', hm⟩⟩
      obtain ⟨pre, m, post, e, hb, hi⟩ := ho c ms .self this
      exact h4 pre m post e hb hi
    | _ => exact reject
  | uptr t =>
    obtain ⟨ok, w, st', h1, h2, h3⟩ := comp (.uptr t j loc) hcalm st q0 (env.ctor t) segs
    have hm : Misfits env (.uptr t) j → ok = false := by
      intro hm
      refine h3 ?_
      cases hm with
      | here _ _ h =>
        cases h with
        | array _ _ h => cases h
        | object _ _ h => cases h
      | component _ _ _ _ _ _ _ hn hm => cases hn; exact hm
    rw [deser_uptr, h1]
    cases ok <;> exact ⟨_, _, _, rfl, fin h2, hm⟩
  | sptr t =>
    rw [deser_sptr]
    cases hr : refMember j with
    | none =>
      have hn : Nth env (.sptr t) j loc 0 t j loc := .sptr t j loc hr
      obtain ⟨ok, w, st', h1, h2, h3⟩ := comp hn hcalm { st with next := st.next + 1 } q0 (env.ctor t) segs
      have hm : Misfits env (.sptr t) j → ok = false := by
        intro hm
        refine h3 ?_
        cases hm with
        | here _ _ h =>
          cases h with
          | array _ _ h => cases h
          | object _ _ h => cases h
        | component _ _ _ _ _ _ _ hn hm => cases hn; exact hm
      simp only [h1]
      cases ok with
      | false => exact ⟨_, _, _, rfl, fin h2, hm⟩
      | true =>
        refine ⟨_, _, _, rfl, fun q a u v hg => ?_, hm⟩
        rcases DState.get_put _ _ _ _ _ hg with hg | ⟨rfl, hx⟩
        · exact fin h2 q a u v hg
        · cases hx
          exact .inr (.here _ _ _ hr)
    | some r =>
      have : ∃ p toks q, r = .str p ∧ pointerTokens env p = some toks ∧ pointerGet root toks = some q ∧ D q.reverse t := by
        by_contra h
        exact hnd (.reference _ _ _ _ r hr fun p toks q h1 h2 h3 h4 => h ⟨p, toks, q, h1, h2, h3, h4⟩)
      obtain ⟨p, toks, q, rfl, h1, h2, h3⟩ := this
      have hm : Misfits env (.sptr t) j → False := by
        intro hm
        cases hm with
        | here _ _ h =>
          cases h with
          | array _ _ h => cases h
          | object _ _ h => cases h
        | component _ _ _ _ _ _ _ hn hm => cases hn with | sptr _ _ _ hr' => rw [hr] at hr'; cases hr'
      simp only [readRef, h1, h2]
      cases hg : st.get q.reverse with
      | none => exact ⟨_, _, _, rfl, fin q0, fun h => (hm h).elim⟩
      | some x =>
        obtain ⟨a, u, v⟩ := x
        have : u = t := hfun _ _ _ (hcov _ _ _ _ hg) h3
        simp only [this, if_true]
        exact ⟨_, _, _, rfl, fin q0, fun h => (hm h).elim⟩

/-! ## With exceptions -/

/-- What is to be shown of a component. -/
def Goes (env : Env) (root : Json) (Q : Nat → DState → Prop) (n : Nat) (t : Ty) (j : Json) (loc : Loc) : Prop :=
  ∀ st, Q n st → ∀ target segs, (∃ s e, deser env root j true t target loc segs st = .threw s e) ∨
    (¬ Misfits env t j ∧ ∃ v st', deser env root j true t target loc segs st = .done true v st' ∧ Q (n + 1) st')

theorem goes_all {env : Env} {root : Json} {t : Ty} {loc : Loc} (Q : Nat → DState → Prop) (segs : List Seg) (js : List Json) : ∀ (k : Nat),
    (∀ (i : Nat) (j : Json), js[i]? = some j → Goes env root Q (k + i) t j ((k + i) :: loc)) → (∃ j ∈ js, Misfits env t j) → ∀ st, Q k st →
    ∃ s e, runSame env t true (js.map (deser env root)) k loc segs st = .threw s e := by
  induction js with
  | nil => intro k _ ⟨j, h, _⟩; cases h
  | cons j js ih =>
    intro k h hm st hq
    simp only [List.map_cons, runSame]
    rcases h 0 j rfl st hq (env.fresh t) (.index k :: segs) with ⟨s, e, h1⟩ | ⟨hn, v, st', h1, q1⟩ <;> rw [Nat.add_zero] at h1 <;> rw [h1]
    · exact ⟨s, e, rfl⟩
    · obtain ⟨s, e, h2⟩ := ih (k + 1) (fun i j hj => by have := h (i + 1) j hj; rwa [show k + (i + 1) = k + 1 + i by omega] at this) (by
        obtain ⟨j', hj', hm⟩ := hm
        rcases List.mem_cons.1 hj' with rfl | hj'
        · exact absurd hm hn
        · exact ⟨j', hj', hm⟩) st' q1
      simp only [h2]
      exact ⟨s, e, rfl⟩

theorem goes_entries {env : Env} {root : Json} {t : Ty} {loc : Loc} (Q : Nat → DState → Prop) (segs : List Seg) (ms : List (Str × Json)) : ∀ (k : Nat),
    (∀ (i : Nat) (p : Str × Json), ms[i]? = some p → Goes env root Q (k + i) t p.2 ((k + i) :: loc)) → (∃ p ∈ ms, Misfits env t p.2) → ∀ st, Q k st →
    ∃ s e, runEntries env t true (ms.map fun p => (p.1, deser env root p.2)) k loc segs st = .threw s e := by
  induction ms with
  | nil => intro k _ ⟨j, h, _⟩; cases h
  | cons p ms ih =>
    intro k h hm st hq
    simp only [List.map_cons, runEntries]
    rcases h 0 p rfl st hq (env.fresh t) (.name (cstr p.1) :: segs) with ⟨s, e, h1⟩ | ⟨hn, v, st', h1, q1⟩ <;> rw [Nat.add_zero] at h1 <;> rw [h1]
    · exact ⟨s, e, rfl⟩
    · obtain ⟨s, e, h2⟩ := ih (k + 1) (fun i j hj => by have := h (i + 1) j hj; rwa [show k + (i + 1) = k + 1 + i by omega] at this) (by
        obtain ⟨j', hj', hm⟩ := hm
        rcases List.mem_cons.1 hj' with rfl | hj'
        · exact absurd hm hn
        · exact ⟨j', hj', hm⟩) st' q1
      simp only [h2]
      exact ⟨s, e, rfl⟩

theorem goes_each {env : Env} {root : Json} {loc : Loc} (Q : Nat → DState → Prop) (segs : List Seg) (js : List Json) : ∀ (ts : List Ty) (k : Nat),
    (∀ (i : Nat) (t : Ty) (j : Json), ts[i]? = some t → js[i]? = some j → Goes env root Q (k + i) t j ((k + i) :: loc)) →
    (∃ (i : Nat) (t : Ty) (j : Json), ts[i]? = some t ∧ js[i]? = some j ∧ Misfits env t j) → ∀ targets st, Q k st →
    ∃ s e, runTuple env true (js.map (deser env root)) ts targets k loc segs st = .threw s e := by
  induction js with
  | nil => intro ts k _ ⟨i, t, j, _, h, _⟩; simp at h
  | cons j js ih =>
    intro ts k h hm targets st hq
    cases ts with
    | nil => obtain ⟨i, t, j, h, _⟩ := hm; simp at h
    | cons t ts =>
      simp only [List.map_cons, runTuple]
      rcases h 0 t j rfl rfl st hq (targets.headD (env.fresh t)) (.index k :: segs) with ⟨s, e, h1⟩ | ⟨hn, v, st', h1, q1⟩ <;> rw [Nat.add_zero] at h1 <;> rw [h1]
      · exact ⟨s, e, rfl⟩
      · obtain ⟨s, e, h2⟩ := ih ts (k + 1) (fun i t j ht hj => by have := h (i + 1) t j ht hj; rwa [show k + (i + 1) = k + 1 + i by omega] at this) (by
          obtain ⟨i, t', j', ht', hj', hm⟩ := hm
          cases i with
          | zero => cases ht'; cases hj'; exact absurd hm hn
          | succ i => exact ⟨i, t', j', ht', hj', hm⟩) targets.tail st' q1
        simp only [h2]
        exact ⟨s, e, rfl⟩

theorem goes_members {env : Env} {root : Json} {fields : List (Str × Json)} {loc : Loc} (Q : Nat → DState → Prop) (segs : List Seg) (ms : List Member) : ∀ (k : Nat),
    (∀ (n : Nat) (m : Member), ms[n]? = some m → (findMember m.name fields = none → ∀ st, Q (k + n) st → Q (k + n + 1) st) ∧
      ∀ i j, findMember m.name fields = some (i, j) → Goes env root Q (k + n) m.ty j (i :: loc)) → (∃ m ∈ ms, BadHere env fields m) →
    ∀ targets res st, Q k st → ∃ s e, runMembers env true (fields.map fun p => (p.1, deser env root p.2)) loc segs ms targets res st = .threw s e := by
  induction ms with
  | nil => intro k _ ⟨j, h, _⟩; cases h
  | cons m ms ih =>
    intro k h hm targets res st hq
    have ih := ih (k + 1) fun i m hm => by have := h (i + 1) m hm; rwa [show k + (i + 1) = k + 1 + i by omega] at this
    obtain ⟨h1, h2⟩ := h 0 m rfl
    have rest : ¬ BadHere env fields m → ∃ m ∈ ms, BadHere env fields m := by
      intro hn
      obtain ⟨m', hm', hb⟩ := hm
      rcases List.mem_cons.1 hm' with rfl | hm'
      · exact absurd hb hn
      · exact ⟨m', hm', hb⟩
    simp only [runMembers, findMember_map]
    cases hf : findMember m.name fields with
    | none =>
      have hq' := h1 hf st hq
      cases hk : m.kind with
      | required => exact ⟨_, _, rfl⟩
      | optional =>
        obtain ⟨s, e, h3⟩ := ih (rest fun hb => by
          rcases hb with ⟨i, j, hb, _⟩ | ⟨_, hb⟩
          · rw [hf] at hb; cases hb
          · rw [hk] at hb; cases hb) targets.tail res st hq'
        simp only [Option.map_none, h3]
        exact ⟨s, e, rfl⟩
      | default =>
        obtain ⟨s, e, h3⟩ := ih (rest fun hb => by
          rcases hb with ⟨i, j, hb, _⟩ | ⟨_, hb⟩
          · rw [hf] at hb; cases hb
          · rw [hk] at hb; cases hb) targets.tail res st hq'
        simp only [Option.map_none, h3]
        exact ⟨s, e, rfl⟩
    | some p =>
      obtain ⟨i, j⟩ := p
      simp only [Option.map_some]
      rcases h2 i j hf st hq (if m.kind = .optional then env.fresh m.ty else targets.headD (env.fresh m.ty)) (Seg.name (cstr m.name) :: segs) with
        ⟨s, e, h1⟩ | ⟨hn, v, st', h1, q1⟩ <;> rw [h1]
      · exact ⟨s, e, rfl⟩
      · obtain ⟨s, e, h3⟩ := ih (rest fun hb => by
          rcases hb with ⟨i, j, hb, hb'⟩ | ⟨hb, _⟩
          · rw [hf] at hb; cases hb; exact hn hb'
          · rw [hf] at hb; cases hb) targets.tail true st' q1
        simp only [h3]
        exact ⟨s, e, rfl⟩

/-- What is to be shown of a node. -/
def Raises (env : Env) (root j : Json) (t : Ty) : Prop := ∀ loc D st, Tab st D → Func D → Clear D loc → ¬ Dangles env root D t j loc → Misfits env t j → ∀ target segs,
  ∃ s e, deser env root j true t target loc segs st = .threw s e

theorem raises (env : Env) (hd : env.DistinctNames) (root : Json) : ∀ j t, Calm env j → Tame env t j → Unnested env t → OrderlyAlts env t j → Raises env root j t := by
  apply lexInd
  intro j t ihj iht hcalm htame hun ho loc D st htab hfun hclear hnd hm target segs
  have child : ∀ {n t' j' loc'}, Nth env t j loc n t' j' loc' → Calm env j' → Raises env root j' t' := by
    intro n t' j' loc' h hc
    rcases h.smaller with hlt | ⟨rfl, hlt⟩
    · exact ihj j' hlt t' hc (htame.child h.child) (hun.inner h.inner) (ho.child h.child)
    · exact iht t' hlt hc (htame.child h.child) (hun.inner h.inner) (ho.child h.child)
  let E : Nat → Loc → Ty → Prop := fun n q u => D q u ∨ Sooner env t j loc n q u
  let Q : Nat → DState → Prop := fun n st => Tab st (E n)
  have q0 : Q 0 st := fun q u => (htab q u).trans ⟨.inl, fun h => h.resolve_right Sooner.zero⟩
  have comp : ∀ {n t' j' loc'}, Nth env t j loc n t' j' loc' → Calm env j' → Goes env root Q n t' j' loc' := by
    intro n t' j' loc' h hc st hq target segs
    have hnd' : ¬ Dangles env root (E n) t' j' loc' := fun h' => hnd (.component _ _ _ _ n t' j' loc' h h')
    by_cases hm : Misfits env t' j'
    · exact .inl (child h hc loc' (E n) st hq (hfun.component hd hun hclear n) (hclear.component hd h) hnd' hm target segs)
    · obtain ⟨t1, t2⟩ := traced env hd root j' t' (htame.child h.child) (hun.inner h.inner) loc' (E n) st hq (hclear.component hd h)
      obtain ⟨v, st', hv⟩ := t2 (not_or.2 ⟨hm, hnd'⟩) target
      refine .inr ⟨hm, v, st', conveys_read env root j' t' hc (ho.child h.child).unmasked loc' target st v st' hv true segs, fun q u => ?_⟩
      rw [(t1 target v st' hv).2 q u]
      show (D q u ∨ _) ∨ _ ↔ D q u ∨ _
      rw [Sooner.succ h, or_assoc]
  have skip : ∀ {n}, (∀ t' j' loc', ¬ Nth env t j loc n t' j' loc') → ∀ st, Q n st → Q (n + 1) st := by
    intro n h st hq q u
    rw [hq q u]
    show D q u ∨ _ ↔ D q u ∨ _
    rw [Sooner.skip h]
  cases t with
  | prim p =>
    rw [deser_prim]
    cases hp : desPrim env p j with
    | ub => exact absurd hp (desPrim_calm env p j hcalm)
    | reject e => exact ⟨_, _, rfl⟩
    | ok pv =>
      cases hm with
      | here _ _ h =>
        cases h with
        | prim _ _ h => exact absurd ((desPrim_ok env p j pv).1 hp) (h pv)
        | array _ _ h => cases h
        | object _ _ h => cases h
      | component _ _ _ _ _ _ _ hn => cases hn
  | vec t =>
    rw [deser_vec]
    cases j with
    | arr js =>
      obtain ⟨s, e, h⟩ := goes_all Q segs js 0
        (fun i j hj => by rw [Nat.zero_add]; exact comp (.vec t js i j loc hj) (hcalm.item (List.mem_of_getElem? hj))) (by
        cases hm with
        | here _ _ h =>
          cases h with
          | array _ _ _ h => exact absurd rfl (h js)
          | object _ _ h => cases h
        | component _ _ _ _ _ _ _ hn hm => cases hn with | vec _ _ _ _ _ h => exact ⟨_, List.mem_of_getElem? h, hm⟩) st q0
      simp only [h]
      exact ⟨s, e, rfl⟩
    | _ => exact ⟨_, _, rfl⟩
  | arr m t =>
    rw [deser_arr]
    cases j with
    | arr js =>
      simp only
      split
      · next hlen =>
        obtain ⟨s, e, h⟩ := goes_all Q segs js 0
          (fun i j hj => by rw [Nat.zero_add]; exact comp (.arr m t js i j loc hj) (hcalm.item (List.mem_of_getElem? hj))) (by
          cases hm with
          | here _ _ h =>
            cases h with
            | array _ _ _ h => exact absurd rfl (h js)
            | object _ _ h => cases h
            | arrLength _ _ _ h => exact absurd hlen h
          | component _ _ _ _ _ _ _ hn hm => cases hn with | arr _ _ _ _ _ _ h => exact ⟨_, List.mem_of_getElem? h, hm⟩) st q0
        simp only [h]
        exact ⟨s, e, rfl⟩
      · exact ⟨_, _, rfl⟩
    | _ => exact ⟨_, _, rfl⟩
  | set t =>
    rw [deser_set]
    cases j with
    | arr js =>
      obtain ⟨s, e, h⟩ := goes_all Q segs js 0
        (fun i j hj => by rw [Nat.zero_add]; exact comp (.set t js i j loc hj) (hcalm.item (List.mem_of_getElem? hj))) (by
        cases hm with
        | here _ _ h =>
          cases h with
          | array _ _ _ h => exact absurd rfl (h js)
          | object _ _ h => cases h
        | component _ _ _ _ _ _ _ hn hm => cases hn with | set _ _ _ _ _ h => exact ⟨_, List.mem_of_getElem? h, hm⟩) st q0
      simp only [h]
      exact ⟨s, e, rfl⟩
    | _ => exact ⟨_, _, rfl⟩
  | dict t =>
    rw [deser_dict]
    cases j with
    | arr js =>
      obtain ⟨s, e, h⟩ := goes_all Q segs js 0
        (fun i j hj => by rw [Nat.zero_add]; exact comp (.dict t js i j loc hj) (hcalm.item (List.mem_of_getElem? hj))) (by
        cases hm with
        | here _ _ h =>
          cases h with
          | array _ _ _ h => exact absurd rfl (h js)
          | object _ _ h => cases h
        | component _ _ _ _ _ _ _ hn hm => cases hn with | dict _ _ _ _ _ h => exact ⟨_, List.mem_of_getElem? h, hm⟩) st q0
      simp only [h]
      exact ⟨s, e, rfl⟩
    | _ => exact ⟨_, _, rfl⟩
  | map o t =>
    rw [deser_map]
    cases j with
    | obj ms =>
      obtain ⟨s, e, h⟩ := goes_entries Q segs ms 0
        (fun i p hp => by rw [Nat.zero_add]; exact comp (.map o t ms i p loc hp) (hcalm.field (List.mem_of_getElem? hp))) (by
        cases hm with
        | here _ _ h =>
          cases h with
          | array _ _ h => cases h
          | object _ _ _ h => exact absurd rfl (h ms)
        | component _ _ _ _ _ _ _ hn hm => cases hn with | map _ _ _ _ _ _ h => exact ⟨_, List.mem_of_getElem? h, hm⟩) st q0
      simp only [h]
      exact ⟨s, e, rfl⟩
    | _ => exact ⟨_, _, rfl⟩
  | tuple ts =>
    rw [deser_tuple]
    cases j with
    | arr js =>
      simp only
      split
      · next hlen =>
        obtain ⟨s, e, h⟩ := goes_each Q segs js ts 0
          (fun i t j ht hj => by rw [Nat.zero_add]; exact comp (.tuple ts js i t j loc ht hj) (hcalm.item (List.mem_of_getElem? hj))) (by
          cases hm with
          | here _ _ h =>
            cases h with
            | array _ _ _ h => exact absurd rfl (h js)
            | object _ _ h => cases h
            | tupleLength _ _ h => exact absurd hlen h
          | component _ _ _ _ _ _ _ hn hm => cases hn with | tuple _ _ _ _ _ _ h h' => exact ⟨_, _, _, h, h', hm⟩) target.components st q0
        simp only [h]
        exact ⟨s, e, rfl⟩
      · exact ⟨_, _, rfl⟩
    | _ => exact ⟨_, _, rfl⟩
  | variant ts =>
    obtain ⟨ok, w, st', h1, -, h3⟩ := settles env hd root j (.variant ts) hcalm htame hun (ho ts j .self) loc D st htab.covered hfun hclear hnd target segs
    obtain rfl := h3 hm
    rw [deser_variant] at h1 ⊢
    cases ht : tryAll env root j ts 0 loc segs st with
    | ub => rw [ht] at h1; cases h1
    | threw s e => exact ⟨_, _, rfl⟩
    | done ok v st2 =>
      cases ok with
      | true => rw [ht] at h1; cases h1
      | false => exact ⟨_, _, rfl⟩
  | cls c =>
    rw [deser_cls]
    cases j with
    | obj ms =>
      obtain ⟨s, e, h⟩ := goes_members Q segs (env.members c) 0 (fun n m hm => by
        rw [Nat.zero_add]
        refine ⟨fun hf => skip fun t' j' loc' h' => ?_, fun i j hf => comp (.cls c ms n m i j loc hm hf) (hcalm.field (findMember_mem hf))⟩
        cases h' with
        | cls _ _ _ m' i' _ _ hm' hf' =>
          rw [hm] at hm'
          cases hm'
          rw [hf] at hf'
          cases hf') (by
        cases hm with
        | here _ _ h =>
          cases h with
          | array _ _ h => cases h
          | object _ _ _ h => exact absurd rfl (h ms)
          | missing _ _ m h1 h2 h3 => exact ⟨m, h1, .inr ⟨h2, h3⟩⟩
        | component _ _ _ _ _ _ _ hn hm => cases hn with | cls _ _ _ m i _ _ h h' => exact ⟨m, List.mem_of_getElem? h, .inl ⟨i, _, h', hm⟩⟩) target.members true st q0
      simp only [h]
      exact ⟨s, e, rfl⟩
    | _ => exact ⟨_, _, rfl⟩
  | uptr t =>
    have hm' : Misfits env t j := by
      cases hm with
      | here _ _ h =>
        cases h with
        | array _ _ h => cases h
        | object _ _ h => cases h
      | component _ _ _ _ _ _ _ hn hm => cases hn; exact hm
    rw [deser_uptr]
    rcases comp (.uptr t j loc) hcalm st q0 (env.ctor t) segs with ⟨s, e, h⟩ | ⟨h, -⟩
    · rw [h]
      exact ⟨s, e, rfl⟩
    · exact absurd hm' h
  | sptr t =>
    have hm' : refMember j = none ∧ Misfits env t j := by
      cases hm with
      | here _ _ h =>
        cases h with
        | array _ _ h => cases h
        | object _ _ h => cases h
      | component _ _ _ _ _ _ _ hn hm => cases hn with | sptr _ _ _ hr => exact ⟨hr, hm⟩
    rw [deser_sptr, hm'.1]
    rcases comp (.sptr t j loc hm'.1) hcalm { st with next := st.next + 1 } q0 (env.ctor t) segs with ⟨s, e, h⟩ | ⟨h, -⟩
    · simp only [h]
      exact ⟨s, e, rfl⟩
    · exact absurd hm'.2 h

end Verif.Core
