import Verif.ConveysPlain

/-!
# Which documents with references denote a value

`Breaks env root D t j loc`: the node `j` at the place `loc` cannot be read as a `t`, when the shared objects in `D` come before it. A
reference is in order iff it refers to a shared object of its type that is complete before the reference is read.
-/

namespace Verif.Core
open Verif.Numeric Verif.EnumConv

/-! ## Specification -/

/-- The alternative as which the node is read: the first one that fits, or the last one. -/
def Chosen (env : Env) (ts : List Ty) (j : Json) (i : Nat) (t : Ty) : Prop :=
  ts[i]? = some t ∧ (∀ k t', k < i → ts[k]? = some t' → Fails env.lower t'.lower j) ∧ (i + 1 = ts.length ∨ ¬ Fails env.lower t.lower j)

/-- When a node is read as a type, this is the component that is read at position `n`, with the type it is read as and its place. -/
inductive Nth (env : Env) : Ty → Json → Loc → Nat → Ty → Json → Loc → Prop
  | vec (t : Ty) (js : List Json) (i : Nat) (j : Json) (loc : Loc) : js[i]? = some j → Nth env (.vec t) (.arr js) loc i t j (i :: loc)
  | arr (n : Nat) (t : Ty) (js : List Json) (i : Nat) (j : Json) (loc : Loc) : js[i]? = some j → Nth env (.arr n t) (.arr js) loc i t j (i :: loc)
  | set (t : Ty) (js : List Json) (i : Nat) (j : Json) (loc : Loc) : js[i]? = some j → Nth env (.set t) (.arr js) loc i t j (i :: loc)
  | dict (t : Ty) (js : List Json) (i : Nat) (j : Json) (loc : Loc) : js[i]? = some j →
      Nth env (.dict t) (.arr js) loc i (.tuple [.prim .str, t]) j (i :: loc)
  | map (o : Bool) (t : Ty) (ms : List (Str × Json)) (i : Nat) (p : Str × Json) (loc : Loc) : ms[i]? = some p →
      Nth env (.map o t) (.obj ms) loc i t p.2 (i :: loc)
  | tuple (ts : List Ty) (js : List Json) (i : Nat) (t : Ty) (j : Json) (loc : Loc) : ts[i]? = some t → js[i]? = some j →
      Nth env (.tuple ts) (.arr js) loc i t j (i :: loc)
  | variant (ts : List Ty) (j : Json) (i : Nat) (t : Ty) (loc : Loc) : Chosen env ts j i t → Nth env (.variant ts) j loc 0 t j loc
  | cls (c : Nat) (ms : List (Str × Json)) (n : Nat) (m : Member) (i : Nat) (j : Json) (loc : Loc) : (env.members c)[n]? = some m →
      findMember m.name ms = some (i, j) → Nth env (.cls c) (.obj ms) loc n m.ty j (i :: loc)
  | uptr (t : Ty) (j : Json) (loc : Loc) : Nth env (.uptr t) j loc 0 t j loc
  | sptr (t : Ty) (j : Json) (loc : Loc) : refMember j = none → Nth env (.sptr t) j loc 0 t j loc

/-- Reading the node as this type gives a shared object of type `u`, from the place `q`. -/
inductive Holds (env : Env) : Ty → Json → Loc → Loc → Ty → Prop
  | here (u : Ty) (j : Json) (loc : Loc) : refMember j = none → Holds env (.sptr u) j loc loc u
  | inside (t : Ty) (j : Json) (loc : Loc) (n : Nat) (t' : Ty) (j' : Json) (loc' q : Loc) (u : Ty) : Nth env t j loc n t' j' loc' →
      Holds env t' j' loc' q u → Holds env t j loc q u

/-- One of the components before position `n` does. -/
def Sooner (env : Env) (t : Ty) (j : Json) (loc : Loc) (n : Nat) (q : Loc) (u : Ty) : Prop :=
  ∃ k t' j' loc', k < n ∧ Nth env t j loc k t' j' loc' ∧ Holds env t' j' loc' q u

/-- The node itself does not have the form that the type asks for. -/
inductive Misfit (env : Env) : Ty → Json → Prop
  | prim (p : Prim) (j : Json) : (∀ pv, ¬ LeafReads env p j pv) → Misfit env (.prim p) j
  | array (t : Ty) (j : Json) : t.wantsArray = true → (∀ js, j ≠ .arr js) → Misfit env t j
  | object (t : Ty) (j : Json) : t.wantsObject = true → (∀ ms, j ≠ .obj ms) → Misfit env t j
  | arrLength (n : Nat) (t : Ty) (js : List Json) : js.length ≠ n → Misfit env (.arr n t) (.arr js)
  | tupleLength (ts : List Ty) (js : List Json) : js.length ≠ ts.length → Misfit env (.tuple ts) (.arr js)
  | missing (c : Nat) (ms : List (Str × Json)) (m : Member) : m ∈ env.members c → findMember m.name ms = none → m.kind = .required →
      Misfit env (.cls c) (.obj ms)
  | noAlternative (j : Json) : Misfit env (.variant []) j

/-- Somewhere in the node there is a node that does not have the form that is asked for. -/
inductive Misfits (env : Env) : Ty → Json → Prop
  | here (t : Ty) (j : Json) : Misfit env t j → Misfits env t j
  | component (t : Ty) (j : Json) (loc : Loc) (n : Nat) (t' : Ty) (j' : Json) (loc' : Loc) : Nth env t j loc n t' j' loc' → Misfits env t' j' → Misfits env t j

/-- Somewhere in the node there is a reference to something else than a shared object of its type that comes before it. `D` are the
objects before the node. -/
inductive Dangles (env : Env) (root : Json) : (Loc → Ty → Prop) → Ty → Json → Loc → Prop
  | component (D : Loc → Ty → Prop) (t : Ty) (j : Json) (loc : Loc) (n : Nat) (t' : Ty) (j' : Json) (loc' : Loc) : Nth env t j loc n t' j' loc' →
      Dangles env root (fun q u => D q u ∨ Sooner env t j loc n q u) t' j' loc' → Dangles env root D t j loc
  | reference (D : Loc → Ty → Prop) (t : Ty) (j : Json) (loc : Loc) (r : Json) : refMember j = some r →
      (∀ p toks q, r = .str p → pointerTokens env p = some toks → pointerGet root toks = some q → ¬ D q.reverse t) → Dangles env root D (.sptr t) j loc

/-- The node cannot be read. -/
def Breaks (env : Env) (root : Json) (D : Loc → Ty → Prop) (t : Ty) (j : Json) (loc : Loc) : Prop := Misfits env t j ∨ Dangles env root D t j loc

/-- No shared pointer points to a shared pointer (also behind unique pointers, or as an alternative). -/
def Unnested (env : Env) (T : Ty) : Prop := ∀ u, Within env T (.sptr u) → u.topShared = false

theorem Unnested.inner {env : Env} {t t' : Ty} (h : Unnested env t) (hi : Inner env t t') : Unnested env t' :=
  fun u hw => h u (.of_inner hi hw)

/-! ## Components -/

theorem Chosen.unique {env : Env} {ts : List Ty} {j : Json} {i i' : Nat} {t t' : Ty} (h : Chosen env ts j i t) (h' : Chosen env ts j i' t') : i = i' := by
  have key : ∀ {i i' : Nat} {t t' : Ty}, Chosen env ts j i t → Chosen env ts j i' t' → ¬ i < i' := by
    intro i i' t t' h h' hlt
    have hi' := (List.getElem?_eq_some_iff.1 h'.1).1
    rcases h.2.2 with hl | hr
    · omega
    · exact hr (h'.2.1 i t hlt h.1)
  have h1 := key h h'
  have h2 := key h' h
  omega

theorem chosen_exists (env : Env) (ts : List Ty) (j : Json) (h : ts ≠ []) : ∃ i t, Chosen env ts j i t := by
  by_cases hall : ∀ t ∈ ts, Fails env.lower t.lower j
  · have hlen : 0 < ts.length := List.length_pos_iff.2 h
    refine ⟨ts.length - 1, ts[ts.length - 1]'(by omega), List.getElem?_eq_getElem _, fun k t' _ ht' => hall t' (List.mem_of_getElem? ht'), .inl (by omega)⟩
  · obtain ⟨i, t, h1, h2, h3⟩ := first_good (fun t => Fails env.lower t.lower j) ts hall
    exact ⟨i, t, h1, h3, .inr h2⟩

theorem Nth.unique {env : Env} {t t1 t2 : Ty} {j j1 j2 : Json} {loc loc1 loc2 : Loc} {n : Nat} (h : Nth env t j loc n t1 j1 loc1)
    (h' : Nth env t j loc n t2 j2 loc2) : t1 = t2 ∧ j1 = j2 ∧ loc1 = loc2 := by
  cases h with
  | vec _ _ _ _ _ h => cases h' with | vec _ _ _ _ _ h' => rw [h] at h'; cases h'; exact ⟨rfl, rfl, rfl⟩
  | arr _ _ _ _ _ _ h => cases h' with | arr _ _ _ _ _ _ h' => rw [h] at h'; cases h'; exact ⟨rfl, rfl, rfl⟩
  | set _ _ _ _ _ h => cases h' with | set _ _ _ _ _ h' => rw [h] at h'; cases h'; exact ⟨rfl, rfl, rfl⟩
  | dict _ _ _ _ _ h => cases h' with | dict _ _ _ _ _ h' => rw [h] at h'; cases h'; exact ⟨rfl, rfl, rfl⟩
  | map _ _ _ _ _ _ h => cases h' with | map _ _ _ _ _ _ h' => rw [h] at h'; cases h'; exact ⟨rfl, rfl, rfl⟩
  | tuple _ _ _ _ _ _ h1 h2 => cases h' with | tuple _ _ _ _ _ _ h1' h2' => rw [h1] at h1'; rw [h2] at h2'; cases h1'; cases h2'; exact ⟨rfl, rfl, rfl⟩
  | variant _ _ i _ _ h =>
    cases h' with
    | variant _ _ i' _ _ h' =>
      have := h.unique h'
      subst this
      have h1 := h.1
      rw [h'.1] at h1
      cases h1
      exact ⟨rfl, rfl, rfl⟩
  | cls _ _ _ _ _ _ _ h1 h2 => cases h' with | cls _ _ _ _ _ _ _ h1' h2' => rw [h1] at h1'; cases h1'; rw [h2] at h2'; cases h2'; exact ⟨rfl, rfl, rfl⟩
  | uptr => cases h'; exact ⟨rfl, rfl, rfl⟩
  | sptr => cases h'; exact ⟨rfl, rfl, rfl⟩

theorem findMember_key {α : Type} {name : Str} : ∀ {ms : List (Str × α)} {i : Nat} {a : α}, findMember name ms = some (i, a) → ms[i]? = some (name, a) := by
  intro ms
  induction ms with
  | nil => intro i a h; cases h
  | cons p ms ih =>
    obtain ⟨k, b⟩ := p
    intro i a h
    simp only [findMember] at h
    split at h
    · next hk => cases h; subst hk; rfl
    · split at h
      · cases h
      · next _ i' b' hi => cases h; exact ih hi

/-- Different components are at different places. -/
theorem Nth.apart {env : Env} (hd : env.DistinctNames) {t t1 t2 : Ty} {j j1 j2 : Json} {loc loc1 loc2 : Loc} {n n' : Nat} (h : Nth env t j loc n t1 j1 loc1)
    (h' : Nth env t j loc n' t2 j2 loc2) (hne : n ≠ n') : ∃ i i', loc1 = i :: loc ∧ loc2 = i' :: loc ∧ i ≠ i' := by
  cases h with
  | vec => cases h'; exact ⟨_, _, rfl, rfl, hne⟩
  | arr => cases h'; exact ⟨_, _, rfl, rfl, hne⟩
  | set => cases h'; exact ⟨_, _, rfl, rfl, hne⟩
  | dict => cases h'; exact ⟨_, _, rfl, rfl, hne⟩
  | map => cases h'; exact ⟨_, _, rfl, rfl, hne⟩
  | tuple => cases h'; exact ⟨_, _, rfl, rfl, hne⟩
  | variant => cases h'; exact absurd rfl hne
  | cls c ms _ m i _ _ h1 h2 =>
    cases h' with
    | cls _ _ _ m' i' _ _ h1' h2' =>
      refine ⟨i, i', rfl, rfl, fun hi => ?_⟩
      subst hi
      have := findMember_key h2
      rw [findMember_key h2'] at this
      have hname : m'.name = m.name := congrArg Prod.fst (Option.some.inj this)
      have g1 : ((env.members c).map (·.name))[n]? = some m.name := by rw [List.getElem?_map, h1]; rfl
      have g2 : ((env.members c).map (·.name))[n']? = some m.name := by rw [List.getElem?_map, h1', ← hname]; rfl
      obtain ⟨b1, e1⟩ := List.getElem?_eq_some_iff.1 g1
      obtain ⟨b2, e2⟩ := List.getElem?_eq_some_iff.1 g2
      exact hne ((List.getElem_inj (hd c)).1 (e1.trans e2.symm))
  | uptr => cases h'; exact absurd rfl hne
  | sptr => cases h'; exact absurd rfl hne

theorem Nth.inner {env : Env} {t t' : Ty} {j j' : Json} {loc loc' : Loc} {n : Nat} (h : Nth env t j loc n t' j' loc') : Inner env t t' := by
  cases h with
  | vec => exact .vec _
  | arr => exact .arr _ _
  | set => exact .set _
  | dict => exact .dict _
  | map => exact .map _ _
  | tuple _ _ _ _ _ _ h => exact .tuple _ _ (List.mem_of_getElem? h)
  | variant _ _ _ _ _ h => exact .variant _ _ (List.mem_of_getElem? h.1)
  | cls _ _ _ _ _ _ _ h => exact .cls _ _ (List.mem_of_getElem? h)
  | uptr => exact .uptr _
  | sptr => exact .sptr _

theorem Nth.smaller {env : Env} {t t' : Ty} {j j' : Json} {loc loc' : Loc} {n : Nat} (h : Nth env t j loc n t' j' loc') :
    sizeOf j' < sizeOf j ∨ (j' = j ∧ sizeOf t' < sizeOf t) := by
  cases h with
  | vec _ _ _ _ _ h => exact .inl (size_item (List.mem_of_getElem? h))
  | arr _ _ _ _ _ _ h => exact .inl (size_item (List.mem_of_getElem? h))
  | set _ _ _ _ _ h => exact .inl (size_item (List.mem_of_getElem? h))
  | dict _ _ _ _ _ h => exact .inl (size_item (List.mem_of_getElem? h))
  | map _ _ _ _ _ _ h => exact .inl (size_field (List.mem_of_getElem? h))
  | tuple _ _ _ _ _ _ _ h => exact .inl (size_item (List.mem_of_getElem? h))
  | variant _ _ _ _ _ h => exact .inr ⟨rfl, size_alt (List.mem_of_getElem? h.1)⟩
  | cls _ _ _ _ _ _ _ _ h => exact .inl (size_field (findMember_mem h))
  | uptr => exact .inr ⟨rfl, by simp⟩
  | sptr => exact .inr ⟨rfl, by simp⟩

theorem Nth.below {env : Env} {t t' : Ty} {j j' : Json} {loc loc' : Loc} {n : Nat} (h : Nth env t j loc n t' j' loc') : loc <:+ loc' := by
  cases h <;> first | exact List.suffix_cons _ _ | exact List.suffix_refl _

theorem Holds.under {env : Env} {t u : Ty} {j : Json} {loc q : Loc} (h : Holds env t j loc q u) : loc <:+ q := by
  induction h with
  | here => exact List.suffix_refl _
  | inside _ _ _ _ _ _ _ _ _ hn _ ih => exact hn.below.trans ih

theorem Nth.top {env : Env} {t t' : Ty} {j j' : Json} {loc loc' : Loc} {n : Nat} (h : Nth env t j loc n t' j' loc') (ht : t.topShared = false) :
    t'.topShared = false ∨ ∃ i, loc' = i :: loc := by
  cases h with
  | vec => exact .inr ⟨_, rfl⟩
  | arr => exact .inr ⟨_, rfl⟩
  | set => exact .inr ⟨_, rfl⟩
  | dict => exact .inr ⟨_, rfl⟩
  | map => exact .inr ⟨_, rfl⟩
  | tuple => exact .inr ⟨_, rfl⟩
  | variant _ _ _ _ _ h => exact .inl (topSharedAny_false ht h.1)
  | cls => exact .inr ⟨_, rfl⟩
  | uptr => exact .inl ht
  | sptr => cases ht

theorem suffix_cons_ne {i : Nat} {loc q : Loc} (h : (i :: loc) <:+ q) : q ≠ loc := by
  rintro rfl
  have := h.length_le
  simp at this

theorem Holds.away {env : Env} {t u : Ty} {j : Json} {loc q : Loc} (h : Holds env t j loc q u) (ht : t.topShared = false) : q ≠ loc := by
  induction h with
  | here => cases ht
  | inside _ _ _ _ _ _ _ _ _ hn hh ih =>
    rcases hn.top ht with h | ⟨i, rfl⟩
    · cases hn with
      | uptr => exact ih h
      | variant => exact ih h
      | sptr => cases ht
      | _ => exact suffix_cons_ne hh.under
    · exact suffix_cons_ne hh.under

/-! ## The table -/

/-- The table has entries for exactly these objects. -/
def Tab (st : DState) (D : Loc → Ty → Prop) : Prop := ∀ q u, (∃ a v, st.get q = some (a, u, v)) ↔ D q u

/-- None of the objects is at or below the place. -/
def Clear (D : Loc → Ty → Prop) (loc : Loc) : Prop := ∀ q u, D q u → ¬ loc <:+ q

theorem Sooner.zero {env : Env} {t u : Ty} {j : Json} {loc q : Loc} : ¬ Sooner env t j loc 0 q u := by
  rintro ⟨k, _, _, _, hk, _⟩
  omega

theorem Sooner.succ {env : Env} {t t' : Ty} {j j' : Json} {loc loc' : Loc} {n : Nat} (h : Nth env t j loc n t' j' loc') (q : Loc) (u : Ty) :
    Sooner env t j loc (n + 1) q u ↔ Sooner env t j loc n q u ∨ Holds env t' j' loc' q u := by
  constructor
  · rintro ⟨k, t2, j2, loc2, hk, h2, h3⟩
    by_cases hkn : k = n
    · subst hkn
      obtain ⟨rfl, rfl, rfl⟩ := h.unique h2
      exact .inr h3
    · exact .inl ⟨k, t2, j2, loc2, by omega, h2, h3⟩
  · rintro (⟨k, t2, j2, loc2, hk, h2, h3⟩ | h3)
    · exact ⟨k, t2, j2, loc2, by omega, h2, h3⟩
    · exact ⟨n, t', j', loc', by omega, h, h3⟩

theorem Sooner.skip {env : Env} {t : Ty} {j : Json} {loc : Loc} {n : Nat} (h : ∀ t' j' loc', ¬ Nth env t j loc n t' j' loc') (q : Loc) (u : Ty) :
    Sooner env t j loc (n + 1) q u ↔ Sooner env t j loc n q u := by
  constructor
  · rintro ⟨k, t2, j2, loc2, hk, h2, h3⟩
    by_cases hkn : k = n
    · subst hkn
      exact absurd h2 (h _ _ _)
    · exact ⟨k, t2, j2, loc2, by omega, h2, h3⟩
  · rintro ⟨k, t2, j2, loc2, hk, h2, h3⟩
    exact ⟨k, t2, j2, loc2, by omega, h2, h3⟩

theorem suffix_cons_inj {i i' : Nat} {loc q : Loc} (h : (i :: loc) <:+ q) (h' : (i' :: loc) <:+ q) : i = i' := by
  obtain ⟨p, rfl⟩ := h
  obtain ⟨p', hp⟩ := h'
  have hl : p'.length = p.length := by
    have := congrArg List.length hp
    simp at this
    omega
  have := (List.append_inj hp hl).2
  cases this
  rfl

theorem Clear.component {env : Env} (hd : env.DistinctNames) {D : Loc → Ty → Prop} {t t' : Ty} {j j' : Json} {loc loc' : Loc} {n : Nat} (hc : Clear D loc)
    (h : Nth env t j loc n t' j' loc') : Clear (fun q u => D q u ∨ Sooner env t j loc n q u) loc' := by
  rintro q u (hq | ⟨k, t2, j2, loc2, hk, h2, h3⟩) hs
  · exact hc q u hq (h.below.trans hs)
  · obtain ⟨i, i', rfl, rfl, hne⟩ := h2.apart hd h (by omega)
    exact hne (suffix_cons_inj h3.under hs)

theorem DState.get_put_new (st : DState) (loc q : Loc) (e : Nat × Ty × Val) (h : st.get loc = none) :
    (st.put loc e).get q = if q = loc then some e else st.get q := by
  unfold DState.get at h
  unfold DState.put
  rw [h]
  simp only [DState.get, List.lookup_cons]
  by_cases hq : q = loc
  · subst hq
    simp
  · rw [show (q == loc) = false by simpa using hq, if_neg hq]

/-! ## Lists of components -/

theorem through_all {env : Env} {root : Json} {t : Ty} {loc : Loc} (Q : Nat → DState → Prop) (G : Nat → Prop) (js : List Json) : ∀ (k : Nat),
    (∀ (i : Nat) (j : Json), js[i]? = some j → ∀ st target v st', Q (k + i) st → Conveys env root t ((k + i) :: loc) j target st v st' → G (k + i) ∧ Q (k + i + 1) st') →
    ∀ st vs st', Q k st → ConveysAll env root t k loc js st vs st' → (∀ i, i < js.length → G (k + i)) ∧ Q (k + js.length) st' := by
  induction js with
  | nil => intro k _ st vs st' hq h; cases h; exact ⟨fun i hi => absurd hi (by simp), hq⟩
  | cons j js ih =>
    intro k hj st vs st' hq h
    cases h with
    | cons _ _ _ _ _ _ v st1 vs _ h1 h2 =>
      obtain ⟨g1, q1⟩ := hj 0 j rfl _ _ _ _ hq h1
      obtain ⟨g2, q2⟩ := ih (k + 1) (fun i j hi => by have := hj (i + 1) j hi; rwa [show k + (i + 1) = k + 1 + i by omega] at this) st1 vs st' q1 h2
      refine ⟨fun i hi => ?_, by rw [List.length_cons, show k + (js.length + 1) = k + 1 + js.length by omega]; exact q2⟩
      cases i with
      | zero => exact g1
      | succ i => rw [show k + (i + 1) = k + 1 + i by omega]; exact g2 i (by simpa using hi)

theorem through_entries {env : Env} {root : Json} {t : Ty} {loc : Loc} (Q : Nat → DState → Prop) (G : Nat → Prop) (ms : List (Str × Json)) : ∀ (k : Nat),
    (∀ (i : Nat) (p : Str × Json), ms[i]? = some p → ∀ st target v st', Q (k + i) st → Conveys env root t ((k + i) :: loc) p.2 target st v st' → G (k + i) ∧ Q (k + i + 1) st') →
    ∀ st vs st', Q k st → ConveysEntries env root t k loc ms st vs st' → (∀ i, i < ms.length → G (k + i)) ∧ Q (k + ms.length) st' := by
  induction ms with
  | nil => intro k _ st vs st' hq h; cases h; exact ⟨fun i hi => absurd hi (by simp), hq⟩
  | cons j ms ih =>
    intro k hj st vs st' hq h
    cases h with
    | cons _ _ _ key j _ _ v st1 vs _ h1 h2 =>
      obtain ⟨g1, q1⟩ := hj 0 (key, j) rfl _ _ _ _ hq h1
      obtain ⟨g2, q2⟩ := ih (k + 1) (fun i j hi => by have := hj (i + 1) j hi; rwa [show k + (i + 1) = k + 1 + i by omega] at this) st1 vs st' q1 h2
      refine ⟨fun i hi => ?_, by rw [List.length_cons, show k + (ms.length + 1) = k + 1 + ms.length by omega]; exact q2⟩
      cases i with
      | zero => exact g1
      | succ i => rw [show k + (i + 1) = k + 1 + i by omega]; exact g2 i (by simpa using hi)

theorem through_each {env : Env} {root : Json} {loc : Loc} (Q : Nat → DState → Prop) (G : Nat → Prop) (js : List Json) : ∀ (ts : List Ty) (k : Nat),
    (∀ (i : Nat) (t : Ty) (j : Json), ts[i]? = some t → js[i]? = some j → ∀ st target v st', Q (k + i) st → Conveys env root t ((k + i) :: loc) j target st v st' →
      G (k + i) ∧ Q (k + i + 1) st') →
    ∀ targets st vs st', Q k st → ConveysEach env root ts k loc js targets st vs st' → js.length = ts.length ∧ (∀ i, i < js.length → G (k + i)) ∧ Q (k + js.length) st' := by
  induction js with
  | nil => intro ts k _ targets st vs st' hq h; cases h; exact ⟨rfl, fun i hi => absurd hi (by simp), hq⟩
  | cons j js ih =>
    intro ts k hj targets st vs st' hq h
    cases h with
    | cons t ts _ _ _ _ _ _ v st1 vs _ h1 h2 =>
      obtain ⟨g1, q1⟩ := hj 0 t j rfl rfl _ _ _ _ hq h1
      obtain ⟨l2, g2, q2⟩ := ih ts (k + 1) (fun i t j ht hi => by have := hj (i + 1) t j ht hi; rwa [show k + (i + 1) = k + 1 + i by omega] at this) _ st1 vs st' q1 h2
      refine ⟨by simp [l2], fun i hi => ?_, by rw [List.length_cons, show k + (js.length + 1) = k + 1 + js.length by omega]; exact q2⟩
      cases i with
      | zero => exact g1
      | succ i => rw [show k + (i + 1) = k + 1 + i by omega]; exact g2 i (by simpa using hi)

theorem through_members {env : Env} {root : Json} {fields : List (Str × Json)} {loc : Loc} (Q : Nat → DState → Prop) (G : Nat → Prop) (ms : List Member) : ∀ (k : Nat),
    (∀ (n : Nat) (m : Member), ms[n]? = some m →
      (findMember m.name fields = none → ∀ st, Q (k + n) st → G (k + n) ∧ Q (k + n + 1) st) ∧
      ∀ i j, findMember m.name fields = some (i, j) → ∀ st target v st', Q (k + n) st → Conveys env root m.ty (i :: loc) j target st v st' → G (k + n) ∧ Q (k + n + 1) st') →
    ∀ targets st vs st', Q k st → ConveysMembers env root loc fields ms targets st vs st' →
      (∀ m ∈ ms, findMember m.name fields = none → m.kind ≠ .required) ∧ (∀ n, n < ms.length → G (k + n)) ∧ Q (k + ms.length) st' := by
  induction ms with
  | nil => intro k _ targets st vs st' hq h; cases h; exact ⟨by simp, fun i hi => absurd hi (by simp), hq⟩
  | cons m ms ih =>
    intro k hj targets st vs st' hq h
    have ih := ih (k + 1) fun i m hi => by have := hj (i + 1) m hi; rwa [show k + (i + 1) = k + 1 + i by omega] at this
    have done : ∀ st1 vs, G k → Q (k + 1) st1 → (findMember m.name fields = none → m.kind ≠ .required) → ConveysMembers env root loc fields ms targets.tail st1 vs st' →
        (∀ m' ∈ m :: ms, findMember m'.name fields = none → m'.kind ≠ .required) ∧ (∀ n, n < (m :: ms).length → G (k + n)) ∧ Q (k + (m :: ms).length) st' := by
      intro st1 vs g1 q1 hm h2
      obtain ⟨r2, g2, q2⟩ := ih _ st1 vs st' q1 h2
      refine ⟨List.forall_mem_cons.2 ⟨hm, r2⟩, fun i hi => ?_, by rw [List.length_cons, show k + (ms.length + 1) = k + 1 + ms.length by omega]; exact q2⟩
      cases i with
      | zero => exact g1
      | succ i => rw [show k + (i + 1) = k + 1 + i by omega]; exact g2 i (by simpa using hi)
    obtain ⟨j1, j2⟩ := hj 0 m rfl
    cases h with
    | present _ _ _ _ _ _ i j v st1 vs _ hf hk h1 h2 =>
      obtain ⟨g1, q1⟩ := j2 i j hf _ _ _ _ hq h1
      exact done _ _ g1 q1 (fun h => by rw [hf] at h; cases h) h2
    | some _ _ _ _ _ _ i j v st1 vs _ hf hk h1 h2 =>
      obtain ⟨g1, q1⟩ := j2 i j hf _ _ _ _ hq h1
      exact done _ _ g1 q1 (fun h => by rw [hf] at h; cases h) h2
    | none _ _ _ _ _ _ vs _ hf hk h2 =>
      obtain ⟨g1, q1⟩ := j1 hf _ hq
      exact done _ _ g1 q1 (fun _ => by simp [hk]) h2
    | keep _ _ _ _ _ _ vs _ hf hk h2 =>
      obtain ⟨g1, q1⟩ := j1 hf _ hq
      exact done _ _ g1 q1 (fun _ => by simp [hk]) h2

/-- What is to be shown of a component. -/
def Leads (env : Env) (root : Json) (Q : Nat → DState → Prop) (n : Nat) (t : Ty) (j : Json) (loc : Loc) : Prop :=
  ∀ st, Q n st → ∀ target, ∃ v st', Conveys env root t loc j target st v st' ∧ Q (n + 1) st'

theorem leads_all {env : Env} {root : Json} {t : Ty} {loc : Loc} (Q : Nat → DState → Prop) (js : List Json) : ∀ (k : Nat),
    (∀ (i : Nat) (j : Json), js[i]? = some j → Leads env root Q (k + i) t j ((k + i) :: loc)) → ∀ st, Q k st → ∃ vs st', ConveysAll env root t k loc js st vs st' := by
  induction js with
  | nil => intro k _ st _; exact ⟨_, _, .nil _ _ _ _⟩
  | cons j js ih =>
    intro k h st hq
    obtain ⟨v, st1, h1, q1⟩ := h 0 j rfl st hq (env.fresh t)
    obtain ⟨vs, st2, h2⟩ := ih (k + 1) (fun i j hj => by have := h (i + 1) j hj; rwa [show k + (i + 1) = k + 1 + i by omega] at this) st1 q1
    exact ⟨_, _, .cons _ _ _ _ _ _ _ _ _ _ h1 h2⟩

theorem leads_entries {env : Env} {root : Json} {t : Ty} {loc : Loc} (Q : Nat → DState → Prop) (ms : List (Str × Json)) : ∀ (k : Nat),
    (∀ (i : Nat) (p : Str × Json), ms[i]? = some p → Leads env root Q (k + i) t p.2 ((k + i) :: loc)) → ∀ st, Q k st → ∃ vs st', ConveysEntries env root t k loc ms st vs st' := by
  induction ms with
  | nil => intro k _ st _; exact ⟨_, _, .nil _ _ _ _⟩
  | cons p ms ih =>
    intro k h st hq
    obtain ⟨key, j⟩ := p
    obtain ⟨v, st1, h1, q1⟩ := h 0 (key, j) rfl st hq (env.fresh t)
    obtain ⟨vs, st2, h2⟩ := ih (k + 1) (fun i j hj => by have := h (i + 1) j hj; rwa [show k + (i + 1) = k + 1 + i by omega] at this) st1 q1
    exact ⟨_, _, .cons _ _ _ _ _ _ _ _ _ _ _ h1 h2⟩

theorem leads_each {env : Env} {root : Json} {loc : Loc} (Q : Nat → DState → Prop) (js : List Json) : ∀ (ts : List Ty) (k : Nat), js.length = ts.length →
    (∀ (i : Nat) (t : Ty) (j : Json), ts[i]? = some t → js[i]? = some j → Leads env root Q (k + i) t j ((k + i) :: loc)) →
    ∀ targets st, Q k st → ∃ vs st', ConveysEach env root ts k loc js targets st vs st' := by
  induction js with
  | nil =>
    intro ts k hlen h targets st _
    cases ts with
    | nil => exact ⟨_, _, .nil _ _ _ _⟩
    | cons t ts => cases hlen
  | cons j js ih =>
    intro ts k hlen h targets st hq
    cases ts with
    | nil => cases hlen
    | cons t ts =>
      obtain ⟨v, st1, h1, q1⟩ := h 0 t j rfl rfl st hq (targets.headD (env.fresh t))
      obtain ⟨vs, st2, h2⟩ := ih ts (k + 1) (by simpa using hlen) (fun i t j ht hj => by have := h (i + 1) t j ht hj; rwa [show k + (i + 1) = k + 1 + i by omega] at this)
        targets.tail st1 q1
      exact ⟨_, _, .cons _ _ _ _ _ _ _ _ _ _ _ _ h1 h2⟩

theorem leads_members {env : Env} {root : Json} {fields : List (Str × Json)} {loc : Loc} (Q : Nat → DState → Prop) (ms : List Member) : ∀ (k : Nat),
    (∀ (n : Nat) (m : Member), ms[n]? = some m → (findMember m.name fields = none → m.kind ≠ .required ∧ ∀ st, Q (k + n) st → Q (k + n + 1) st) ∧
      ∀ i j, findMember m.name fields = some (i, j) → Leads env root Q (k + n) m.ty j (i :: loc)) →
    ∀ targets st, Q k st → ∃ vs st', ConveysMembers env root loc fields ms targets st vs st' := by
  induction ms with
  | nil => intro k _ targets st _; exact ⟨_, _, .nil _ _ _ _⟩
  | cons m ms ih =>
    intro k h targets st hq
    have ih := ih (k + 1) fun i m hm => by have := h (i + 1) m hm; rwa [show k + (i + 1) = k + 1 + i by omega] at this
    obtain ⟨h1, h2⟩ := h 0 m rfl
    cases hf : findMember m.name fields with
    | none =>
      obtain ⟨hr, hs⟩ := h1 hf
      obtain ⟨vs, st', hv⟩ := ih targets.tail st (hs st hq)
      cases hk : m.kind with
      | required => exact absurd hk hr
      | optional => exact ⟨_, _, .none _ _ _ _ _ _ _ _ hf hk hv⟩
      | default => exact ⟨_, _, .keep _ _ _ _ _ _ _ _ hf hk hv⟩
    | some q =>
      obtain ⟨i, j⟩ := q
      by_cases hk : m.kind = .optional
      · obtain ⟨v, st1, hv1, q1⟩ := h2 i j hf st hq (env.fresh m.ty)
        obtain ⟨vs, st', hv⟩ := ih targets.tail st1 q1
        exact ⟨_, _, .some _ _ _ _ _ _ _ _ _ _ _ _ hf hk hv1 hv⟩
      · obtain ⟨v, st1, hv1, q1⟩ := h2 i j hf st hq (targets.headD (env.fresh m.ty))
        obtain ⟨vs, st', hv⟩ := ih targets.tail st1 q1
        exact ⟨_, _, .present _ _ _ _ _ _ _ _ _ _ _ _ hf hk hv1 hv⟩

/-! ## Types without shared pointers -/

theorem leafReads_raise {env : Env} {p : Prim} {j : Json} {pv : PVal} (h : LeafReads env p j pv) : LeafReads env.lower p j pv := by
  cases h with
  | null => exact .null
  | bool b => exact .bool b
  | int t v h => exact .int t v h
  | flt t n => exact .flt t n
  | str s => exact .str s
  | bytes s bs h => exact .bytes s bs h
  | time s t h => exact .time s t h
  | date s y m d h => exact .date s y m d h
  | enumInt t v h => exact .enumInt t v h
  | enumStr table s v h => exact .enumStr table s v h

theorem fails_misfits (env : Env) : ∀ j t, Sharefree env t → Fails env.lower t.lower j → Misfits env t j := by
  apply lexInd
  intro j t ihj iht hs hf
  cases t with
  | prim p =>
    cases hf with
    | prim _ _ h => exact .here _ _ (.prim _ _ fun pv hp => h pv (leafReads_raise hp))
    | array _ _ h => cases h
    | object _ _ h => cases h
  | vec t =>
    cases hf with
    | vec _ js j hj h =>
      obtain ⟨i, hi⟩ := List.mem_iff_getElem?.1 hj
      exact .component _ _ [] i t j _ (.vec t js i j [] hi) (ihj j (size_item hj) t (hs.inner (.vec t)) h)
    | array _ _ _ h => exact .here _ _ (.array _ _ rfl h)
    | object _ _ h => cases h
  | arr n t =>
    cases hf with
    | arr _ _ js j hj h =>
      obtain ⟨i, hi⟩ := List.mem_iff_getElem?.1 hj
      exact .component _ _ [] i t j _ (.arr n t js i j [] hi) (ihj j (size_item hj) t (hs.inner (.arr n t)) h)
    | arrLength _ _ _ h => exact .here _ _ (.arrLength _ _ _ h)
    | array _ _ _ h => exact .here _ _ (.array _ _ rfl h)
    | object _ _ h => cases h
  | set t =>
    cases hf with
    | set _ js j hj h =>
      obtain ⟨i, hi⟩ := List.mem_iff_getElem?.1 hj
      exact .component _ _ [] i t j _ (.set t js i j [] hi) (ihj j (size_item hj) t (hs.inner (.set t)) h)
    | array _ _ _ h => exact .here _ _ (.array _ _ rfl h)
    | object _ _ h => cases h
  | dict t =>
    cases hf with
    | dict _ js j hj h =>
      obtain ⟨i, hi⟩ := List.mem_iff_getElem?.1 hj
      exact .component _ _ [] i _ j _ (.dict t js i j [] hi) (ihj j (size_item hj) _ (hs.inner (.dict t)) h)
    | array _ _ _ h => exact .here _ _ (.array _ _ rfl h)
    | object _ _ h => cases h
  | map o t =>
    cases hf with
    | map _ _ ms p hp h =>
      obtain ⟨i, hi⟩ := List.mem_iff_getElem?.1 hp
      exact .component _ _ [] i t p.2 _ (.map o t ms i p [] hi) (ihj p.2 (size_field hp) t (hs.inner (.map o t)) h)
    | array _ _ h => cases h
    | object _ _ _ h => exact .here _ _ (.object _ _ rfl h)
  | tuple ts =>
    cases hf with
    | tuple _ js i t j ht hj h =>
      rw [lowers_map, List.getElem?_map] at ht
      cases ht' : ts[i]? with
      | none => rw [ht'] at ht; cases ht
      | some t' =>
        rw [ht'] at ht
        cases ht
        exact .component _ _ [] i t' j _ (.tuple ts js i t' j [] ht' hj)
          (ihj j (size_item (List.mem_of_getElem? hj)) t' (hs.inner (.tuple ts t' (List.mem_of_getElem? ht'))) h)
    | tupleLength _ _ h => exact .here _ _ (.tupleLength _ _ (by rwa [lowers_length] at h))
    | array _ _ _ h => exact .here _ _ (.array _ _ rfl h)
    | object _ _ h => cases h
  | variant ts =>
    cases hf with
    | variant _ _ h =>
      by_cases hts : ts = []
      · subst hts
        exact .here _ _ (.noAlternative j)
      · obtain ⟨i, t, hc⟩ := chosen_exists env ts j hts
        have hm := List.mem_of_getElem? hc.1
        exact .component _ _ [] 0 t j _ (.variant ts j i t [] hc) (iht t (size_alt hm) (hs.inner (.variant ts t hm))
          (h _ (by rw [lowers_map]; exact List.mem_map_of_mem hm)))
    | array _ _ h => cases h
    | object _ _ h => cases h
  | cls c =>
    cases hf with
    | member _ ms m' i j hm hf h =>
      obtain ⟨m, hm1, rfl⟩ := List.mem_map.1 hm
      obtain ⟨n, hn⟩ := List.mem_iff_getElem?.1 hm1
      exact .component _ _ [] n m.ty j _ (.cls c ms n m i j [] hn hf) (ihj j (size_field (findMember_mem hf)) m.ty (hs.inner (.cls c m hm1)) h)
    | missing _ ms m' hm hf hk =>
      obtain ⟨m, hm1, rfl⟩ := List.mem_map.1 hm
      exact .here _ _ (.missing c ms m hm1 hf hk)
    | array _ _ h => cases h
    | object _ _ _ h => exact .here _ _ (.object _ _ rfl h)
  | uptr t =>
    cases hf with
    | uptr _ _ h => exact .component _ _ [] 0 t j _ (.uptr t j []) (iht t (by simp) (hs.inner (.uptr t)) h)
    | array _ _ h => cases h
    | object _ _ h => cases h
  | sptr t => exact absurd .self (hs t)

/-- A refused alternative does not fit. -/
theorem traceless_misfits {env : Env} {j : Json} {t : Ty} (ht : Traceless env t j) (h : Fails env.lower t.lower j) : Misfits env t j := by
  rcases ht with ht | ⟨u, rfl, hu, hr⟩
  · exact fails_misfits env j t ht h
  · have hf : Fails env.lower u.lower j := by
      cases h with
      | uptr _ _ h => exact h
      | array _ _ h => cases h
      | object _ _ h => cases h
    exact .component _ _ [] 0 u j [] (.sptr u j [] hr) (fails_misfits env j u hu hf)

theorem Nth.move {env : Env} {t t' : Ty} {j j' : Json} {loc loc' : Loc} {n : Nat} (h : Nth env t j loc n t' j' loc') (loc2 : Loc) :
    ∃ loc2', Nth env t j loc2 n t' j' loc2' := by
  cases h with
  | vec _ _ _ _ _ h => exact ⟨_, .vec _ _ _ _ _ h⟩
  | arr _ _ _ _ _ _ h => exact ⟨_, .arr _ _ _ _ _ _ h⟩
  | set _ _ _ _ _ h => exact ⟨_, .set _ _ _ _ _ h⟩
  | dict _ _ _ _ _ h => exact ⟨_, .dict _ _ _ _ _ h⟩
  | map _ _ _ _ _ _ h => exact ⟨_, .map _ _ _ _ _ _ h⟩
  | tuple _ _ _ _ _ _ h h' => exact ⟨_, .tuple _ _ _ _ _ _ h h'⟩
  | variant _ _ _ _ _ h => exact ⟨_, .variant _ _ _ _ _ h⟩
  | cls _ _ _ _ _ _ _ h h' => exact ⟨_, .cls _ _ _ _ _ _ _ h h'⟩
  | uptr => exact ⟨_, .uptr _ _ _⟩
  | sptr _ _ _ h => exact ⟨_, .sptr _ _ _ h⟩

theorem Breaks.component {env : Env} {root : Json} {D : Loc → Ty → Prop} {t t' : Ty} {j j' : Json} {loc loc' : Loc} {n : Nat} (h : Nth env t j loc n t' j' loc')
    (hb : Breaks env root (fun q u => D q u ∨ Sooner env t j loc n q u) t' j' loc') : Breaks env root D t j loc := by
  rcases hb with hb | hb
  · exact .inl (.component _ _ _ _ _ _ _ h hb)
  · exact .inr (.component _ _ _ _ _ _ _ _ h hb)

/-- A node breaks by itself, or a component does, or it is a bad reference. -/
theorem Breaks.split {env : Env} {root : Json} {D : Loc → Ty → Prop} {t : Ty} {j : Json} {loc : Loc} (h : Breaks env root D t j loc) :
    Misfit env t j ∨ (∃ n t' j' loc', Nth env t j loc n t' j' loc' ∧ Breaks env root (fun q u => D q u ∨ Sooner env t j loc n q u) t' j' loc') ∨
      ∃ u r, t = .sptr u ∧ refMember j = some r ∧
        ∀ p toks q, r = .str p → pointerTokens env p = some toks → pointerGet root toks = some q → ¬ D q.reverse u := by
  rcases h with h | h
  · cases h with
    | here _ _ h => exact .inl h
    | component _ _ loc1 n t' j' loc' h1 h2 =>
      obtain ⟨loc2, h3⟩ := h1.move loc
      exact .inr (.inl ⟨n, t', j', loc2, h3, .inl h2⟩)
  · cases h with
    | component _ _ _ _ n t' j' loc' h1 h2 => exact .inr (.inl ⟨n, t', j', loc', h1, .inr h2⟩)
    | reference _ t _ _ r h1 h2 => exact .inr (.inr ⟨t, r, rfl, h1, h2⟩)

theorem Nth.child {env : Env} {t t' : Ty} {j j' : Json} {loc loc' : Loc} {n : Nat} (h : Nth env t j loc n t' j' loc') : ChildAt env t j loc t' j' loc' := by
  cases h with
  | vec _ _ _ _ _ h => exact .vec _ _ _ _ _ h
  | arr _ _ _ _ _ _ h => exact .arr _ _ _ _ _ _ h
  | set _ _ _ _ _ h => exact .set _ _ _ _ _ h
  | dict _ _ _ _ _ h => exact .dict _ _ _ _ _ h
  | map _ _ _ _ _ _ h => exact .map _ _ _ _ _ _ h
  | tuple _ _ _ _ _ _ h h' => exact .tuple _ _ _ _ _ _ h h'
  | variant _ _ _ _ _ h => exact .variant _ _ _ _ (List.mem_of_getElem? h.1)
  | cls _ _ _ _ _ _ _ h h' => exact .cls _ _ _ _ _ _ (List.mem_of_getElem? h) h'
  | uptr => exact .uptr _ _ _
  | sptr _ _ _ h => exact .sptr _ _ _ h

/-! ## All documents -/

/-- What is to be shown of a node. -/
def Traced (env : Env) (root j : Json) (t : Ty) : Prop := ∀ loc D st, Tab st D → Clear D loc →
  (∀ target v st', Conveys env root t loc j target st v st' → ¬ Breaks env root D t j loc ∧ Tab st' fun q u => D q u ∨ Holds env t j loc q u) ∧
  (¬ Breaks env root D t j loc → ∀ target, ∃ v st', Conveys env root t loc j target st v st')

theorem traced (env : Env) (hd : env.DistinctNames) (root : Json) : ∀ j t, Tame env t j → Unnested env t → Traced env root j t := by
  apply lexInd
  intro j t ihj iht htame hun loc D st htab hclear
  have child : ∀ {n t' j' loc'}, Nth env t j loc n t' j' loc' → Traced env root j' t' := by
    intro n t' j' loc' h
    rcases h.smaller with hlt | ⟨rfl, hlt⟩
    · exact ihj j' hlt t' (htame.child h.child) (hun.inner h.inner)
    · exact iht t' hlt (htame.child h.child) (hun.inner h.inner)
  let E : Nat → Loc → Ty → Prop := fun n q u => D q u ∨ Sooner env t j loc n q u
  let Q : Nat → DState → Prop := fun n st => Tab st (E n)
  let G : Nat → Prop := fun n => ∀ t' j' loc', Nth env t j loc n t' j' loc' → ¬ Breaks env root (E n) t' j' loc'
  have q0 : Q 0 st := fun q u => (htab q u).trans ⟨.inl, fun h => h.resolve_right Sooner.zero⟩
  have next : ∀ {n t' j' loc' st'}, Nth env t j loc n t' j' loc' → (Tab st' fun q u => E n q u ∨ Holds env t' j' loc' q u) → Q (n + 1) st' := by
    intro n t' j' loc' st' h ht q u
    rw [ht q u]
    show (D q u ∨ _) ∨ _ ↔ D q u ∨ _
    rw [Sooner.succ h, or_assoc]
  have F1 : ∀ {n t' j' loc'}, Nth env t j loc n t' j' loc' → ∀ st target v st', Q n st → Conveys env root t' loc' j' target st v st' → G n ∧ Q (n + 1) st' := by
    intro n t' j' loc' h st target v st' hq hv
    obtain ⟨h1, h2⟩ := (child h loc' (E n) st hq (hclear.component hd h)).1 target v st' hv
    refine ⟨fun t2 j2 loc2 h' => ?_, next h h2⟩
    obtain ⟨rfl, rfl, rfl⟩ := h.unique h'
    exact h1
  have F2 : ∀ {n t' j' loc'}, ¬ Breaks env root D t j loc → Nth env t j loc n t' j' loc' → Leads env root Q n t' j' loc' := by
    intro n t' j' loc' hb h st hq target
    obtain ⟨h1, h2⟩ := child h loc' (E n) st hq (hclear.component hd h)
    obtain ⟨v, st', hv⟩ := h2 (fun h' => hb (.component h h')) target
    exact ⟨v, st', hv, next h (h1 target v st' hv).2⟩
  have skip : ∀ {n}, (∀ t' j' loc', ¬ Nth env t j loc n t' j' loc') → ∀ st, Q n st → G n ∧ Q (n + 1) st := by
    intro n h st hq
    refine ⟨fun t' j' loc' h' => absurd h' (h _ _ _), fun q u => ?_⟩
    rw [hq q u]
    show D q u ∨ _ ↔ D q u ∨ _
    rw [Sooner.skip h]
  have last : ∀ {N st'}, (∀ u, t ≠ .sptr u) → (∀ n t' j' loc', Nth env t j loc n t' j' loc' → n < N) → Q N st' → Tab st' fun q u => D q u ∨ Holds env t j loc q u := by
    intro N st' hns hN hq q u
    rw [hq q u]
    refine or_congr Iff.rfl ⟨fun ⟨k, t', j', loc', _, h2, h3⟩ => .inside _ _ _ k t' j' loc' q u h2 h3, fun h => ?_⟩
    cases h with
    | here => exact absurd rfl (hns _)
    | inside _ _ _ n t' j' loc' _ _ h1 h2 => exact ⟨n, t', j', loc', hN _ _ _ _ h1, h1, h2⟩
  have unbroken : ∀ {N}, (∀ u, t ≠ .sptr u) → ¬ Misfit env t j → (∀ n t' j' loc', Nth env t j loc n t' j' loc' → n < N) → (∀ n, n < N → G n) → ¬ Breaks env root D t j loc := by
    intro N hns hm hN hg hb
    rcases hb.split with h | ⟨n, t', j', loc', h, h'⟩ | ⟨u, _, h, _⟩
    · exact hm h
    · exact hg n (hN _ _ _ _ h) t' j' loc' h h'
    · exact hns u h
  cases t with
  | prim p =>
    refine ⟨fun target v st' h => ?_, fun hb target => ?_⟩
    · cases h with
      | prim _ _ _ _ _ pv h =>
        have hN : ∀ n t' j' loc', Nth env (.prim p) j loc n t' j' loc' → n < 0 := fun n t' j' loc' h => by cases h
        refine ⟨unbroken (by simp) (fun hm => ?_) hN (by simp), last (by simp) hN q0⟩
        cases hm with
        | prim _ _ h' => exact h' pv h
        | array _ _ h => cases h
        | object _ _ h => cases h
    · have : ∃ pv, LeafReads env p j pv := by
        by_contra h
        exact hb (.inl <| .here _ _ (.prim p j fun pv hp => h ⟨pv, hp⟩))
      obtain ⟨pv, hp⟩ := this
      exact ⟨_, _, .prim p loc j target st pv hp⟩
  | vec t =>
    refine ⟨fun target v st' h => ?_, fun hb target => ?_⟩
    · cases h with
      | vec _ _ js _ _ vs _ h =>
        obtain ⟨g, q⟩ := through_all Q G js 0 (fun i j hj => by rw [Nat.zero_add]; exact F1 (.vec t js i j loc hj)) st vs st' q0 h
        simp only [Nat.zero_add] at g q
        have hN : ∀ n t' j' loc', Nth env (.vec t) (.arr js) loc n t' j' loc' → n < js.length := by
          intro n t' j' loc' h; cases h with | vec _ _ _ _ _ h => exact (List.getElem?_eq_some_iff.1 h).1
        refine ⟨unbroken (by simp) (fun hm => ?_) hN g, last (by simp) hN q⟩
        cases hm with
        | array _ _ _ h => exact h _ rfl
        | object _ _ h => cases h
    · cases j with
      | arr js =>
        obtain ⟨vs, st', h⟩ := leads_all Q js 0 (fun i j hj => by rw [Nat.zero_add]; exact F2 hb (.vec t js i j loc hj)) st q0
        exact ⟨_, _, .vec _ _ _ _ _ _ _ h⟩
      | _ => exact absurd (.inl <| .here _ _ (.array _ _ rfl (by simp))) hb
  | arr m t =>
    refine ⟨fun target v st' h => ?_, fun hb target => ?_⟩
    · cases h with
      | arr _ _ _ js _ _ vs _ hlen h =>
        obtain ⟨g, q⟩ := through_all Q G js 0 (fun i j hj => by rw [Nat.zero_add]; exact F1 (.arr m t js i j loc hj)) st vs st' q0 h
        simp only [Nat.zero_add] at g q
        have hN : ∀ n t' j' loc', Nth env (.arr m t) (.arr js) loc n t' j' loc' → n < js.length := by
          intro n t' j' loc' h; cases h with | arr _ _ _ _ _ _ h => exact (List.getElem?_eq_some_iff.1 h).1
        refine ⟨unbroken (by simp) (fun hm => ?_) hN g, last (by simp) hN q⟩
        cases hm with
        | array _ _ _ h => exact h _ rfl
        | object _ _ h => cases h
        | arrLength _ _ _ h => exact h hlen
    · cases j with
      | arr js =>
        obtain ⟨vs, st', h⟩ := leads_all Q js 0 (fun i j hj => by rw [Nat.zero_add]; exact F2 hb (.arr m t js i j loc hj)) st q0
        have hlen : js.length = m := by
          by_contra h
          exact hb (.inl <| .here _ _ (.arrLength _ _ _ h))
        exact ⟨_, _, .arr _ _ _ _ _ _ _ _ hlen h⟩
      | _ => exact absurd (.inl <| .here _ _ (.array _ _ rfl (by simp))) hb
  | set t =>
    refine ⟨fun target v st' h => ?_, fun hb target => ?_⟩
    · cases h with
      | set _ _ js _ _ vs _ h =>
        obtain ⟨g, q⟩ := through_all Q G js 0 (fun i j hj => by rw [Nat.zero_add]; exact F1 (.set t js i j loc hj)) st vs st' q0 h
        simp only [Nat.zero_add] at g q
        have hN : ∀ n t' j' loc', Nth env (.set t) (.arr js) loc n t' j' loc' → n < js.length := by
          intro n t' j' loc' h; cases h with | set _ _ _ _ _ h => exact (List.getElem?_eq_some_iff.1 h).1
        refine ⟨unbroken (by simp) (fun hm => ?_) hN g, last (by simp) hN q⟩
        cases hm with
        | array _ _ _ h => exact h _ rfl
        | object _ _ h => cases h
    · cases j with
      | arr js =>
        obtain ⟨vs, st', h⟩ := leads_all Q js 0 (fun i j hj => by rw [Nat.zero_add]; exact F2 hb (.set t js i j loc hj)) st q0
        exact ⟨_, _, .set _ _ _ _ _ _ _ h⟩
      | _ => exact absurd (.inl <| .here _ _ (.array _ _ rfl (by simp))) hb
  | dict t =>
    refine ⟨fun target v st' h => ?_, fun hb target => ?_⟩
    · cases h with
      | dict _ _ js _ _ vs _ h =>
        obtain ⟨g, q⟩ := through_all Q G js 0 (fun i j hj => by rw [Nat.zero_add]; exact F1 (.dict t js i j loc hj)) st vs st' q0 h
        simp only [Nat.zero_add] at g q
        have hN : ∀ n t' j' loc', Nth env (.dict t) (.arr js) loc n t' j' loc' → n < js.length := by
          intro n t' j' loc' h; cases h with | dict _ _ _ _ _ h => exact (List.getElem?_eq_some_iff.1 h).1
        refine ⟨unbroken (by simp) (fun hm => ?_) hN g, last (by simp) hN q⟩
        cases hm with
        | array _ _ _ h => exact h _ rfl
        | object _ _ h => cases h
    · cases j with
      | arr js =>
        obtain ⟨vs, st', h⟩ := leads_all Q js 0 (fun i j hj => by rw [Nat.zero_add]; exact F2 hb (.dict t js i j loc hj)) st q0
        exact ⟨_, _, .dict _ _ _ _ _ _ _ h⟩
      | _ => exact absurd (.inl <| .here _ _ (.array _ _ rfl (by simp))) hb
  | map o t =>
    refine ⟨fun target v st' h => ?_, fun hb target => ?_⟩
    · cases h with
      | map _ _ _ ms _ _ vs _ h =>
        obtain ⟨g, q⟩ := through_entries Q G ms 0 (fun i p hp => by rw [Nat.zero_add]; exact F1 (.map o t ms i p loc hp)) st vs st' q0 h
        simp only [Nat.zero_add] at g q
        have hN : ∀ n t' j' loc', Nth env (.map o t) (.obj ms) loc n t' j' loc' → n < ms.length := by
          intro n t' j' loc' h; cases h with | map _ _ _ _ _ _ h => exact (List.getElem?_eq_some_iff.1 h).1
        refine ⟨unbroken (by simp) (fun hm => ?_) hN g, last (by simp) hN q⟩
        cases hm with
        | array _ _ h => cases h
        | object _ _ _ h => exact h _ rfl
    · cases j with
      | obj ms =>
        obtain ⟨vs, st', h⟩ := leads_entries Q ms 0 (fun i p hp => by rw [Nat.zero_add]; exact F2 hb (.map o t ms i p loc hp)) st q0
        exact ⟨_, _, .map _ _ _ _ _ _ _ _ h⟩
      | _ => exact absurd (.inl <| .here _ _ (.object _ _ rfl (by simp))) hb
  | tuple ts =>
    refine ⟨fun target v st' h => ?_, fun hb target => ?_⟩
    · cases h with
      | tuple _ _ js _ _ vs _ h =>
        obtain ⟨hlen, g, q⟩ := through_each Q G js ts 0 (fun i t j ht hj => by rw [Nat.zero_add]; exact F1 (.tuple ts js i t j loc ht hj)) _ st vs st' q0 h
        simp only [Nat.zero_add] at g q
        have hN : ∀ n t' j' loc', Nth env (.tuple ts) (.arr js) loc n t' j' loc' → n < js.length := by
          intro n t' j' loc' h; cases h with | tuple _ _ _ _ _ _ _ h => exact (List.getElem?_eq_some_iff.1 h).1
        refine ⟨unbroken (by simp) (fun hm => ?_) hN g, last (by simp) hN q⟩
        cases hm with
        | array _ _ _ h => exact h _ rfl
        | object _ _ h => cases h
        | tupleLength _ _ h => exact h hlen
    · cases j with
      | arr js =>
        have hlen : js.length = ts.length := by
          by_contra h
          exact hb (.inl <| .here _ _ (.tupleLength _ _ h))
        obtain ⟨vs, st', h⟩ := leads_each Q js ts 0 hlen (fun i t j ht hj => by rw [Nat.zero_add]; exact F2 hb (.tuple ts js i t j loc ht hj)) target.components st q0
        exact ⟨_, _, .tuple _ _ _ _ _ _ _ h⟩
      | _ => exact absurd (.inl <| .here _ _ (.array _ _ rfl (by simp))) hb
  | variant ts =>
    have hN : ∀ n t' j' loc', Nth env (.variant ts) j loc n t' j' loc' → n < 1 := by
      intro n t' j' loc' h; cases h; omega
    refine ⟨fun target v st' h => ?_, fun hb target => ?_⟩
    · cases h with
      | variant _ _ _ _ _ i t v _ h1 h2 h3 =>
        have hm := List.mem_of_getElem? h1
        have hi : Inner env (.variant ts) t := .variant ts t hm
        have hnb := ((iht t (size_alt hm) (htame.child (ChildAt.variant ts j t [] hm)) (hun.inner hi) loc D { st with next := st.next + wasted (ts.take i) } htab hclear).1 _ v st' h3).1
        have hch : Chosen env ts j i t := by
          refine ⟨h1, fun k t' hk ht' => (h2 k t' hk ht').2, ?_⟩
          by_cases hl : i + 1 = ts.length
          · exact .inl hl
          · refine .inr fun hr => hnb (.inl (traceless_misfits (htame ts j .self i t ?_ h1) hr))
            have := (List.getElem?_eq_some_iff.1 h1).1
            omega
        obtain ⟨g, q⟩ := F1 (.variant ts j i t loc hch) { st with next := st.next + wasted (ts.take i) } _ v st' q0 h3
        refine ⟨unbroken (by simp) (fun hm => ?_) hN (fun n hn => by rw [Nat.lt_one_iff.1 hn]; exact g), last (by simp) hN q⟩
        cases hm with
        | array _ _ h => cases h
        | object _ _ h => cases h
        | noAlternative => cases h1
    · have hts : ts ≠ [] := by
        rintro rfl
        exact hb (.inl <| .here _ _ (.noAlternative j))
      obtain ⟨i, t, hc⟩ := chosen_exists env ts j hts
      obtain ⟨v, st', h, -⟩ := F2 hb (.variant ts j i t loc hc) { st with next := st.next + wasted (ts.take i) } q0 (env.fresh t)
      refine ⟨_, _, .variant ts loc j target st i t v st' hc.1 (fun k t' hk ht' => ⟨?_, hc.2.1 k t' hk ht'⟩) h⟩
      have hlt := (List.getElem?_eq_some_iff.1 hc.1).1
      exact htame ts j .self k t' (by omega) ht'
  | cls c =>
    refine ⟨fun target v st' h => ?_, fun hb target => ?_⟩
    · cases h with
      | cls _ _ ms _ _ vs _ h =>
        obtain ⟨hreq, g, q⟩ := through_members Q G (env.members c) 0 (fun n m hm => by
          rw [Nat.zero_add]
          refine ⟨fun hf => skip fun t' j' loc' h' => ?_, fun i j hf => F1 (.cls c ms n m i j loc hm hf)⟩
          cases h' with
          | cls _ _ _ m' i' _ _ hm' hf' =>
            rw [hm] at hm'
            cases hm'
            rw [hf] at hf'
            cases hf') _ st vs st' q0 h
        simp only [Nat.zero_add] at g q
        have hN : ∀ n t' j' loc', Nth env (.cls c) (.obj ms) loc n t' j' loc' → n < (env.members c).length := by
          intro n t' j' loc' h; cases h with | cls _ _ _ _ _ _ _ h => exact (List.getElem?_eq_some_iff.1 h).1
        refine ⟨unbroken (by simp) (fun hm => ?_) hN g, last (by simp) hN q⟩
        cases hm with
        | array _ _ h => cases h
        | object _ _ _ h => exact h _ rfl
        | missing _ _ m hm hf hk => exact hreq m hm hf hk
    · cases j with
      | obj ms =>
        obtain ⟨vs, st', h⟩ := leads_members Q (env.members c) 0 (fun n m hm => by
          rw [Nat.zero_add]
          refine ⟨fun hf => ⟨fun hk => hb (.inl <| .here _ _ (.missing c ms m (List.mem_of_getElem? hm) hf hk)), fun st hq => (skip (fun t' j' loc' h' => ?_) st hq).2⟩,
            fun i j hf => F2 hb (.cls c ms n m i j loc hm hf)⟩
          cases h' with
          | cls _ _ _ m' i' _ _ hm' hf' =>
            rw [hm] at hm'
            cases hm'
            rw [hf] at hf'
            cases hf') target.members st q0
        exact ⟨_, _, .cls _ _ _ _ _ _ _ h⟩
      | _ => exact absurd (.inl <| .here _ _ (.object _ _ rfl (by simp))) hb
  | uptr t =>
    have hN : ∀ n t' j' loc', Nth env (.uptr t) j loc n t' j' loc' → n < 1 := by
      intro n t' j' loc' h; cases h; omega
    refine ⟨fun target v st' h => ?_, fun hb target => ?_⟩
    · cases h with
      | uptr _ _ _ _ _ v _ h =>
        obtain ⟨g, q⟩ := F1 (.uptr t j loc) st _ v st' q0 h
        refine ⟨unbroken (by simp) (fun hm => ?_) hN (fun n hn => by rw [Nat.lt_one_iff.1 hn]; exact g), last (by simp) hN q⟩
        cases hm with
        | array _ _ h => cases h
        | object _ _ h => cases h
    · obtain ⟨v, st', h, -⟩ := F2 hb (.uptr t j loc) st q0 (env.ctor t)
      exact ⟨_, _, .uptr _ _ _ _ _ _ _ h⟩
  | sptr t =>
    have nomisfit : ¬ Misfit env (.sptr t) j := by
      intro hm
      cases hm with
      | array _ _ h => cases h
      | object _ _ h => cases h
    refine ⟨fun target v st' h => ?_, fun hb target => ?_⟩
    · cases h with
      | sptr _ _ _ _ _ v st1 hr h =>
        have hnth : Nth env (.sptr t) j loc 0 t j loc := .sptr t j loc hr
        obtain ⟨g, q⟩ := F1 hnth { st with next := st.next + 1 } _ v st1 q0 h
        have hnew : st1.get loc = none := by
          cases hg : st1.get loc with
          | none => rfl
          | some x =>
            obtain ⟨a, u, w⟩ := x
            exfalso
            rcases (q loc u).1 ⟨a, w, hg⟩ with h | ⟨k, t', j', loc', hk, h2, h3⟩
            · exact hclear loc u h (List.suffix_refl _)
            · obtain rfl : k = 0 := by omega
              obtain ⟨rfl, rfl, rfl⟩ := hnth.unique h2
              exact h3.away (hun t .self) rfl
        constructor
        · intro hb
          rcases hb.split with h | ⟨n, t', j', loc', h, h'⟩ | ⟨u, r, _, hr', _⟩
          · exact nomisfit h
          · have : n = 0 := by cases h; rfl
            subst this
            exact g t' j' loc' h h'
          · rw [hr] at hr'; cases hr'
        · intro q' u
          rw [DState.get_put_new _ _ _ _ hnew]
          by_cases hq : q' = loc
          · subst hq
            rw [if_pos rfl]
            constructor
            · rintro ⟨a, w, hx⟩
              cases hx
              exact .inr (.here _ _ _ hr)
            · rintro (h | h)
              · exact absurd (List.suffix_refl _) (hclear _ _ h)
              · cases h with
                | here => exact ⟨_, _, rfl⟩
                | inside _ _ _ _ _ _ _ _ _ h1 h2 =>
                  cases h1
                  exact absurd rfl (h2.away (hun t .self))
          · rw [if_neg hq, q q' u]
            show D q' u ∨ _ ↔ D q' u ∨ _
            rw [Sooner.succ hnth]
            refine or_congr Iff.rfl ⟨fun h => ?_, fun h => ?_⟩
            · exact .inside _ _ _ _ _ _ _ _ _ hnth (h.resolve_left Sooner.zero)
            · cases h with
              | here => exact absurd rfl hq
              | inside _ _ _ _ _ _ _ _ _ h1 h2 => cases h1; exact .inr h2
      | ref _ _ _ _ _ p toks q a v hr h1 h2 h3 =>
        constructor
        · intro hb
          rcases hb.split with h | ⟨n, t', j', loc', h, h'⟩ | ⟨u, r, hu, hr', h⟩
          · exact nomisfit h
          · cases h with | sptr _ _ _ hr' => rw [hr] at hr'; cases hr'
          · cases hu
            rw [hr] at hr'
            cases hr'
            exact h p toks q rfl h1 h2 ((htab _ _).1 ⟨a, v, h3⟩)
        · intro q' u
          rw [htab q' u]
          refine ⟨.inl, fun h => h.resolve_right fun h => ?_⟩
          cases h with
          | here _ _ _ hr' => rw [hr] at hr'; cases hr'
          | inside _ _ _ _ _ _ _ _ _ h1 _ => cases h1 with | sptr _ _ _ hr' => rw [hr] at hr'; cases hr'
    · cases hr : refMember j with
      | none =>
        obtain ⟨v, st', h, -⟩ := F2 hb (.sptr t j loc hr) { st with next := st.next + 1 } q0 (env.ctor t)
        exact ⟨_, _, .sptr _ _ _ _ _ _ _ hr h⟩
      | some r =>
        have : ∃ p toks q, r = .str p ∧ pointerTokens env p = some toks ∧ pointerGet root toks = some q ∧ D q.reverse t := by
          by_contra h
          exact hb (.inr <| .reference _ _ _ _ r hr fun p toks q h1 h2 h3 h4 => h ⟨p, toks, q, h1, h2, h3, h4⟩)
        obtain ⟨p, toks, q, rfl, h1, h2, h3⟩ := this
        obtain ⟨a, v, hg⟩ := (htab _ _).2 h3
        exact ⟨_, _, .ref t loc j target st p toks q a v hr h1 h2 hg⟩

/-- **A document denotes a value iff nothing in it breaks.** -/
theorem conveys_iff (env : Env) (hd : env.DistinctNames) (T : Ty) (root : Json) (htame : Tame env T root) (hun : Unnested env T) (target : Val) (next : Nat) :
    (∃ v st', Conveys env root T [] root target ⟨[], next⟩ v st') ↔ ¬ Breaks env root (fun _ _ => False) T root [] := by
  have htab : Tab ⟨[], next⟩ fun _ _ => False := fun q u => ⟨fun ⟨a, v, h⟩ => (by cases h), False.elim⟩
  obtain ⟨h1, h2⟩ := traced env hd root root T htame hun [] (fun _ _ => False) ⟨[], next⟩ htab (fun _ _ h => h.elim)
  exact ⟨fun ⟨v, st', h⟩ => (h1 target v st' h).1, fun h => h2 h target⟩

end Verif.Core
