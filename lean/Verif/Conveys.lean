import Verif.Safe

/-!
# What a document with references means

`Conveys env root t loc j target st v st'`: when the node `j` at the place `loc` of the document `root` is read as a `t`,
while the shared objects recorded in `st` have been read before it, it denotes the value `v`, and `st'` are the shared
objects afterwards. Shared objects are numbered in the order in which they begin in the document; a reference denotes
the object that was read from the node to which it points. The readers do not occur in this relation.

Alternatives of a variant before the one that is taken must not contain shared pointers (except at the top): what they
leave behind in the table of references would matter (C46, C68).
-/

namespace Verif.Core

/-! ## Specification -/

/-- Values of the first type have components of the second type. -/
inductive Inner (env : Env) : Ty → Ty → Prop
  | vec (t : Ty) : Inner env (.vec t) t
  | arr (n : Nat) (t : Ty) : Inner env (.arr n t) t
  | set (t : Ty) : Inner env (.set t) t
  | map (o : Bool) (t : Ty) : Inner env (.map o t) t
  | dict (t : Ty) : Inner env (.dict t) (.tuple [.prim .str, t])
  | tuple (ts : List Ty) (t : Ty) : t ∈ ts → Inner env (.tuple ts) t
  | variant (ts : List Ty) (t : Ty) : t ∈ ts → Inner env (.variant ts) t
  | cls (c : Nat) (m : Member) : m ∈ env.members c → Inner env (.cls c) m.ty
  | uptr (t : Ty) : Inner env (.uptr t) t
  | sptr (t : Ty) : Inner env (.sptr t) t

/-- The second type occurs in the first one, at any depth. -/
inductive Within (env : Env) (t : Ty) : Ty → Prop
  | self : Within env t t
  | inner (t1 t2 : Ty) : Within env t t1 → Inner env t1 t2 → Within env t t2

/-- No shared pointer occurs in the type. -/
def Sharefree (env : Env) (t : Ty) : Prop := ∀ u, ¬ Within env t (.sptr u)

/-- Trying to read a node as this type leaves no shared object behind if it fails. -/
def Traceless (env : Env) (t : Ty) (j : Json) : Prop := Sharefree env t ∨ ∃ u, t = .sptr u ∧ Sharefree env u ∧ refMember j = none

/-- The number of addresses that trying to read a node as one of these types uses up. -/
def wasted : List Ty → Nat
  | [] => 0
  | .sptr _ :: ts => wasted ts + 1
  | _ :: ts => wasted ts

mutual
/-- The node denotes a value of the type. -/
inductive Conveys (env : Env) (root : Json) : Ty → Loc → Json → Val → DState → Val → DState → Prop
  | prim (p : Prim) (loc : Loc) (j : Json) (target : Val) (st : DState) (pv : PVal) : LeafReads env p j pv →
      Conveys env root (.prim p) loc j target st (.prim pv) st
  | vec (t : Ty) (loc : Loc) (js : List Json) (target : Val) (st : DState) (vs : List Val) (st' : DState) : ConveysAll env root t 0 loc js st vs st' →
      Conveys env root (.vec t) loc (.arr js) target st (.seq vs) st'
  | arr (n : Nat) (t : Ty) (loc : Loc) (js : List Json) (target : Val) (st : DState) (vs : List Val) (st' : DState) : js.length = n →
      ConveysAll env root t 0 loc js st vs st' → Conveys env root (.arr n t) loc (.arr js) target st (.tup vs) st'
  | set (t : Ty) (loc : Loc) (js : List Json) (target : Val) (st : DState) (vs : List Val) (st' : DState) : ConveysAll env root t 0 loc js st vs st' →
      Conveys env root (.set t) loc (.arr js) target st (.set (setOf env.less vs)) st'
  | map (o : Bool) (t : Ty) (loc : Loc) (ms : List (Str × Json)) (target : Val) (st : DState) (kvs : List (Str × Val)) (st' : DState) :
      ConveysEntries env root t 0 loc ms st kvs st' → Conveys env root (.map o t) loc (.obj ms) target st (.map (mapOf kvs)) st'
  | dict (t : Ty) (loc : Loc) (js : List Json) (target : Val) (st : DState) (vs : List Val) (st' : DState) :
      ConveysAll env root (.tuple [.prim .str, t]) 0 loc js st vs st' →
      Conveys env root (.dict t) loc (.arr js) target st (.dict (vs.map dictEntry)) st'
  | tuple (ts : List Ty) (loc : Loc) (js : List Json) (target : Val) (st : DState) (vs : List Val) (st' : DState) :
      ConveysEach env root ts 0 loc js target.components st vs st' → Conveys env root (.tuple ts) loc (.arr js) target st (.tup vs) st'
  | variant (ts : List Ty) (loc : Loc) (j : Json) (target : Val) (st : DState) (i : Nat) (t : Ty) (v : Val) (st' : DState) : ts[i]? = some t →
      (∀ k t', k < i → ts[k]? = some t' → Traceless env t' j ∧ Fails env.lower t'.lower j) →
      Conveys env root t loc j (env.fresh t) { st with next := st.next + wasted (ts.take i) } v st' →
      Conveys env root (.variant ts) loc j target st (.alt i v) st'
  | cls (c : Nat) (loc : Loc) (ms : List (Str × Json)) (target : Val) (st : DState) (vs : List Val) (st' : DState) :
      ConveysMembers env root loc ms (env.members c) target.members st vs st' → Conveys env root (.cls c) loc (.obj ms) target st (.obj vs) st'
  | uptr (t : Ty) (loc : Loc) (j : Json) (target : Val) (st : DState) (v : Val) (st' : DState) : Conveys env root t loc j (env.ctor t) st v st' →
      Conveys env root (.uptr t) loc j target st (.uptr v) st'
  | sptr (t : Ty) (loc : Loc) (j : Json) (target : Val) (st : DState) (v : Val) (st' : DState) : refMember j = none →
      Conveys env root t loc j (env.ctor t) { st with next := st.next + 1 } v st' →
      Conveys env root (.sptr t) loc j target st (.sptr st.next v) (st'.put loc (st.next, t, v))
  | ref (t : Ty) (loc : Loc) (j : Json) (target : Val) (st : DState) (p : Str) (toks : List Str) (q : List Nat) (a : Nat) (v : Val) :
      refMember j = some (.str p) → pointerTokens env p = some toks → pointerGet root toks = some q → st.get q.reverse = some (a, t, v) →
      Conveys env root (.sptr t) loc j target st (.sptr a v) st

/-- Each node denotes a value of the same type. -/
inductive ConveysAll (env : Env) (root : Json) : Ty → Nat → Loc → List Json → DState → List Val → DState → Prop
  | nil (t : Ty) (k : Nat) (loc : Loc) (st : DState) : ConveysAll env root t k loc [] st [] st
  | cons (t : Ty) (k : Nat) (loc : Loc) (j : Json) (js : List Json) (st : DState) (v : Val) (st1 : DState) (vs : List Val) (st' : DState) :
      Conveys env root t (k :: loc) j (env.fresh t) st v st1 → ConveysAll env root t (k + 1) loc js st1 vs st' →
      ConveysAll env root t k loc (j :: js) st (v :: vs) st'

/-- The value of each member denotes a value of the same type; keys end at a NUL character. -/
inductive ConveysEntries (env : Env) (root : Json) : Ty → Nat → Loc → List (Str × Json) → DState → List (Str × Val) → DState → Prop
  | nil (t : Ty) (k : Nat) (loc : Loc) (st : DState) : ConveysEntries env root t k loc [] st [] st
  | cons (t : Ty) (k : Nat) (loc : Loc) (key : Str) (j : Json) (ms : List (Str × Json)) (st : DState) (v : Val) (st1 : DState)
      (kvs : List (Str × Val)) (st' : DState) :
      Conveys env root t (k :: loc) j (env.fresh t) st v st1 → ConveysEntries env root t (k + 1) loc ms st1 kvs st' →
      ConveysEntries env root t k loc ((key, j) :: ms) st ((cstr key, v) :: kvs) st'

/-- As many nodes as types, each denotes a value of its type. -/
inductive ConveysEach (env : Env) (root : Json) : List Ty → Nat → Loc → List Json → List Val → DState → List Val → DState → Prop
  | nil (k : Nat) (loc : Loc) (targets : List Val) (st : DState) : ConveysEach env root [] k loc [] targets st [] st
  | cons (t : Ty) (ts : List Ty) (k : Nat) (loc : Loc) (j : Json) (js : List Json) (targets : List Val) (st : DState) (v : Val) (st1 : DState)
      (vs : List Val) (st' : DState) :
      Conveys env root t (k :: loc) j (targets.headD (env.fresh t)) st v st1 → ConveysEach env root ts (k + 1) loc js targets.tail st1 vs st' →
      ConveysEach env root (t :: ts) k loc (j :: js) targets st (v :: vs) st'

/-- Every required member is in the document, and every member that is in the document denotes a value; the members are
taken in the order of the class. -/
inductive ConveysMembers (env : Env) (root : Json) : Loc → List (Str × Json) → List Member → List Val → DState → List Val → DState → Prop
  | nil (loc : Loc) (fields : List (Str × Json)) (targets : List Val) (st : DState) : ConveysMembers env root loc fields [] targets st [] st
  | present (loc : Loc) (fields : List (Str × Json)) (m : Member) (ms : List Member) (targets : List Val) (st : DState) (i : Nat) (j : Json) (v : Val)
      (st1 : DState) (vs : List Val) (st' : DState) :
      findMember m.name fields = some (i, j) → m.kind ≠ .optional → Conveys env root m.ty (i :: loc) j (targets.headD (env.fresh m.ty)) st v st1 →
      ConveysMembers env root loc fields ms targets.tail st1 vs st' → ConveysMembers env root loc fields (m :: ms) targets st (v :: vs) st'
  | some (loc : Loc) (fields : List (Str × Json)) (m : Member) (ms : List Member) (targets : List Val) (st : DState) (i : Nat) (j : Json) (v : Val)
      (st1 : DState) (vs : List Val) (st' : DState) :
      findMember m.name fields = some (i, j) → m.kind = .optional → Conveys env root m.ty (i :: loc) j (env.fresh m.ty) st v st1 →
      ConveysMembers env root loc fields ms targets.tail st1 vs st' → ConveysMembers env root loc fields (m :: ms) targets st (.present v :: vs) st'
  | none (loc : Loc) (fields : List (Str × Json)) (m : Member) (ms : List Member) (targets : List Val) (st : DState) (vs : List Val) (st' : DState) :
      findMember m.name fields = none → m.kind = .optional →
      ConveysMembers env root loc fields ms targets.tail st vs st' → ConveysMembers env root loc fields (m :: ms) targets st (.absent :: vs) st'
  | keep (loc : Loc) (fields : List (Str × Json)) (m : Member) (ms : List Member) (targets : List Val) (st : DState) (vs : List Val) (st' : DState) :
      findMember m.name fields = none → m.kind = .default →
      ConveysMembers env root loc fields ms targets.tail st vs st' →
      ConveysMembers env root loc fields (m :: ms) targets st (targets.headD (env.fresh m.ty) :: vs) st'
end

/-- When the node `j` is read as a `t`, the node `j'` may be read as a `t'`. -/
inductive Reach (env : Env) (t : Ty) (j : Json) : Ty → Json → Prop
  | self : Reach env t j t j
  | child (t1 : Ty) (j1 : Json) (loc1 : Loc) (t2 : Ty) (j2 : Json) (loc2 : Loc) : Reach env t j t1 j1 → ChildAt env t1 j1 loc1 t2 j2 loc2 →
      Reach env t j t2 j2

/-- In no alternative that is passed over, an object has a bad member in front of a good one. -/
def AltsUnmasked (env : Env) (t : Ty) (j : Json) : Prop := ∀ ts j', Reach env t j (.variant ts) j' →
  ∀ t' ∈ ts, Traceless env t' j' → Unmasked env.lower t'.lower j'

theorem Reach.of_child {env : Env} {t t1 t2 : Ty} {j j1 j2 : Json} {loc loc1 : Loc} (h : ChildAt env t j loc t1 j1 loc1)
    (h' : Reach env t1 j1 t2 j2) : Reach env t j t2 j2 := by
  induction h' with
  | self => exact .child _ _ _ _ _ _ .self h
  | child _ _ _ _ _ _ _ hc ih => exact .child _ _ _ _ _ _ ih hc

theorem AltsUnmasked.child {env : Env} {t t' : Ty} {j j' : Json} {loc loc' : Loc} (h : AltsUnmasked env t j) (hc : ChildAt env t j loc t' j' loc') :
    AltsUnmasked env t' j' := fun ts j2 hr => h ts j2 (.of_child hc hr)

/-! ## Types without shared pointers -/

theorem Within.of_inner {env : Env} {t t1 t2 : Ty} (h : Inner env t t1) (h' : Within env t1 t2) : Within env t t2 := by
  induction h' with
  | self => exact .inner _ _ .self h
  | inner _ _ _ hc ih => exact .inner _ _ ih hc

theorem Sharefree.inner {env : Env} {t t' : Ty} (h : Sharefree env t) (hi : Inner env t t') : Sharefree env t' :=
  fun u hw => h u (.of_inner hi hw)

theorem sharefree_lower (env : Env) (t : Ty) : Sharefree env t → t.lower = t := by
  refine Ty.rec (motive_1 := fun t => Sharefree env t → t.lower = t)
    (motive_2 := fun ts => (∀ t ∈ ts, Sharefree env t) → Ty.lowers ts = ts) ?_ ?_ ?_ ?_ ?_ ?_ ?_ ?_ ?_ ?_ ?_ ?_ ?_ t
  · intro p _; rfl
  · intro t ih h; rw [Ty.lower, ih (h.inner (.vec t))]
  · intro n t ih h; rw [Ty.lower, ih (h.inner (.arr n t))]
  · intro t ih h; rw [Ty.lower, ih (h.inner (.set t))]
  · intro o t ih h; rw [Ty.lower, ih (h.inner (.map o t))]
  · intro t ih h
    rw [Ty.lower, ih ((h.inner (.dict t)).inner (.tuple _ t (by simp)))]
  · intro ts ih h; rw [Ty.lower, ih fun t ht => h.inner (.tuple ts t ht)]
  · intro ts ih h; rw [Ty.lower, ih fun t ht => h.inner (.variant ts t ht)]
  · intro c _; rfl
  · intro t ih h; rw [Ty.lower, ih (h.inner (.uptr t))]
  · intro t _ h; exact absurd .self (h t)
  · intro _; rfl
  · intro t ts ih1 ih2 h
    rw [Ty.lowers, ih1 (h t (by simp)), ih2 fun t ht => h t (by simp [ht])]

/-- Reading a type without shared pointers does not depend on the shared pointers of other types. -/
theorem sharefree_deser (env : Env) (root : Json) : ∀ j t, Sharefree env t → ∀ exc, deser env root j exc t = deser env.lower root j exc t := by
  apply lexInd
  intro j t ihj iht hs exc
  have same : ∀ (t : Ty) (js : List Json), (∀ j ∈ js, deser env root j exc t = deser env.lower root j exc t) → ∀ k loc segs st,
      runSame env t exc (js.map (deser env root)) k loc segs st = runSame env.lower t exc (js.map (deser env.lower root)) k loc segs st := by
    intro t js h
    induction js with
    | nil => intro k loc segs st; rfl
    | cons j js ih =>
      intro k loc segs st
      simp only [List.map_cons, runSame, h j (by simp), ih fun j hj => h j (by simp [hj])]
      rfl
  funext target loc segs st
  cases t with
  | prim p => rw [deser_prim, deser_prim, desPrim_lower]
  | vec t =>
    rw [deser_vec, deser_vec]
    cases j with
    | arr js => simp only [same t js fun j hj => ihj j (size_item hj) t (hs.inner (.vec t)) exc]
    | _ => rfl
  | arr n t =>
    rw [deser_arr, deser_arr]
    cases j with
    | arr js => simp only [same t js fun j hj => ihj j (size_item hj) t (hs.inner (.arr n t)) exc]
    | _ => rfl
  | set t =>
    rw [deser_set, deser_set]
    cases j with
    | arr js => simp only [same t js fun j hj => ihj j (size_item hj) t (hs.inner (.set t)) exc]; rfl
    | _ => rfl
  | dict t =>
    rw [deser_dict, deser_dict]
    cases j with
    | arr js => simp only [same _ js fun j hj => ihj j (size_item hj) _ (hs.inner (.dict t)) exc]
    | _ => rfl
  | map o t =>
    have entries : ∀ (ms : List (Str × Json)), (∀ p ∈ ms, deser env root p.2 exc t = deser env.lower root p.2 exc t) → ∀ k loc segs st,
        runEntries env t exc (ms.map fun p => (p.1, deser env root p.2)) k loc segs st =
          runEntries env.lower t exc (ms.map fun p => (p.1, deser env.lower root p.2)) k loc segs st := by
      intro ms h
      induction ms with
      | nil => intro k loc segs st; rfl
      | cons p ms ih =>
        intro k loc segs st
        simp only [List.map_cons, runEntries, h p (by simp), ih fun j hj => h j (by simp [hj])]
        rfl
    rw [deser_map, deser_map]
    cases j with
    | obj ms => simp only [entries ms fun p hp => ihj p.2 (size_field hp) t (hs.inner (.map o t)) exc]
    | _ => rfl
  | tuple ts =>
    have each : ∀ (js : List Json) (ts : List Ty), (∀ j ∈ js, ∀ t ∈ ts, deser env root j exc t = deser env.lower root j exc t) →
        ∀ targets k loc segs st, runTuple env exc (js.map (deser env root)) ts targets k loc segs st =
          runTuple env.lower exc (js.map (deser env.lower root)) ts targets k loc segs st := by
      intro js
      induction js with
      | nil => intro ts h targets k loc segs st; cases ts <;> rfl
      | cons j js ih =>
        intro ts h targets k loc segs st
        cases ts with
        | nil => rfl
        | cons t ts =>
          simp only [List.map_cons, runTuple, h j (by simp) t (by simp), ih ts fun j hj t ht => h j (by simp [hj]) t (by simp [ht])]
          rfl
    rw [deser_tuple, deser_tuple]
    cases j with
    | arr js => simp only [each js ts fun j hj t ht => ihj j (size_item hj) t (hs.inner (.tuple ts t ht)) exc]
    | _ => rfl
  | variant ts =>
    have alts : ∀ (ts : List Ty), (∀ t ∈ ts, deser env root j false t = deser env.lower root j false t) →
        ∀ i loc segs st, tryAll env root j ts i loc segs st = tryAll env.lower root j ts i loc segs st := by
      intro ts h
      induction ts with
      | nil => intro i loc segs st; rfl
      | cons t ts ih =>
        intro i loc segs st
        simp only [tryAll, h t (by simp), ih fun t ht => h t (by simp [ht])]
        rfl
    rw [deser_variant, deser_variant, alts ts fun t ht => iht t (size_alt ht) (hs.inner (.variant ts t ht)) false]
  | cls c =>
    have members : ∀ (ms : List (Str × Json)) (l : List Member), (∀ p ∈ ms, ∀ m ∈ l, deser env root p.2 exc m.ty = deser env.lower root p.2 exc m.ty) →
        (∀ m ∈ l, m.ty.lower = m.ty) →
        ∀ targets res st, runMembers env exc (ms.map fun p => (p.1, deser env root p.2)) loc segs l targets res st =
          runMembers env.lower exc (ms.map fun p => (p.1, deser env.lower root p.2)) loc segs (l.map Member.lower) targets res st := by
      intro ms l h hl
      induction l with
      | nil => intro targets res st; rfl
      | cons m l ih =>
        intro targets res st
        have ih := ih (fun p hp m hm => h p hp m (by simp [hm])) fun m hm => hl m (by simp [hm])
        have hm : m.lower = m := by
          simp only [Member.lower, hl m (by simp)]
        simp only [List.map_cons, hm, runMembers, findMember_map, ih]
        cases hf : findMember m.name ms with
        | none => rfl
        | some q =>
          obtain ⟨i, j⟩ := q
          have := h _ (findMember_mem hf) m (by simp)
          simp only at this
          simp only [Option.map_some, this]
          rfl
    rw [deser_cls, deser_cls]
    cases j with
    | obj ms =>
      simp only [Env.lower_members]
      rw [members ms (env.members c) (fun p hp m hm => ihj p.2 (size_field hp) m.ty (hs.inner (.cls c m hm)) exc)
        fun m hm => sharefree_lower env m.ty (hs.inner (.cls c m hm))]
    | _ => rfl
  | uptr t =>
    rw [deser_uptr, deser_uptr, iht t (by simp) (hs.inner (.uptr t)) exc]
    rfl
  | sptr t => exact absurd .self (hs t)

/-- A component in the document is a component of the lowered type. -/
theorem ChildAt.lower {env : Env} {t t' : Ty} {j j' : Json} {loc loc' : Loc} (h : ChildAt env t j loc t' j' loc') :
    Child env.lower t.lower j t'.lower j' := by
  cases h with
  | vec t js i _ _ h => exact .vec _ _ _ (List.mem_of_getElem? h)
  | arr n t js i _ _ h => exact .arr _ _ _ _ (List.mem_of_getElem? h)
  | set t js i _ _ h => exact .set _ _ _ (List.mem_of_getElem? h)
  | dict t js i _ _ h => exact .dict _ _ _ (List.mem_of_getElem? h)
  | map o t ms i p _ h => exact .map _ _ _ _ (List.mem_of_getElem? h)
  | tuple ts js i t _ _ h h' =>
    refine .tuple _ _ i _ _ ?_ h'
    rw [lowers_map, List.getElem?_map, h]
    rfl
  | variant ts _ _ _ h =>
    refine .variant _ _ _ ?_
    rw [lowers_map]
    exact List.mem_map.2 ⟨_, h, rfl⟩
  | cls c ms m i _ _ hm hf => exact .cls c ms m.lower i _ (List.mem_map.2 ⟨m, hm, rfl⟩) hf
  | uptr => exact .uptr _ _
  | sptr => exact .uptr _ _

/-- A refused alternative that leaves no trace. -/
theorem traceless_refused (env : Env) (root j : Json) (t : Ty) (ht : Traceless env t j) (hc : Calm env j) (hf : Fails env.lower t.lower j)
    (hun : Unmasked env.lower t.lower j) (target : Val) (loc : Loc) (segs : List Seg) (st : DState) :
    ∃ w, deser env root j false t target loc segs st = .done false w { st with next := st.next + wasted [t] } := by
  have hu := lower_env_unshared env
  have key : ∀ (t : Ty), Sharefree env t → Fails env.lower t.lower j → Unmasked env.lower t.lower j → ∀ target segs st,
      ∃ w, deser env root j false t target loc segs st = .done false w st := by
    intro t hs hf hun target segs st
    have ht := lower_unshared t
    rw [sharefree_deser env root j t hs false]
    rw [sharefree_lower env t hs] at ht hf hun
    have hb := (follows env.lower hu j t ht ((calm_lower env j).2 hc)).2 false hf ⟨hun.variants, fun _ => hun⟩ target segs
    rw [free env.lower hu j t ht false target segs root loc st]
    cases hp : pd env.lower j false t target segs with
    | ub => rw [hp] at hb; exact hb.elim
    | threw s e => rw [hp] at hb; cases hb
    | done ok w =>
      rw [hp] at hb
      obtain ⟨-, rfl⟩ := hb
      exact ⟨w, rfl⟩
  rcases ht with ht | ⟨u, rfl, ht, hr⟩
  · have : wasted [t] = 0 := by
      cases t with
      | sptr u => exact absurd .self (ht u)
      | _ => rfl
    rw [this]
    exact key t ht hf hun target segs st
  · rw [deser_sptr, hr]
    simp only
    have hf' : Fails env.lower u.lower j := by
      cases hf with
      | uptr _ _ h => exact h
      | array _ _ h => cases h
      | object _ _ h => cases h
    obtain ⟨w, hw⟩ := key u ht hf' (hun.child (.uptr _ _)) (env.ctor u) segs { st with next := st.next + 1 }
    rw [hw]
    exact ⟨_, rfl⟩

theorem Reach.lower {env : Env} {t t' : Ty} {j j' : Json} (h : Reach env t j t' j') : Part env.lower t.lower j t'.lower j' := by
  induction h with
  | self => exact .self
  | child _ _ _ _ _ _ _ hc ih => exact .child _ _ _ _ ih hc.lower

/-- It suffices that no object inside variants has a bad member in front of a good one. -/
theorem VariantsUnmasked.alts {env : Env} {t : Ty} {j : Json} (h : VariantsUnmasked env.lower t.lower j) : AltsUnmasked env t j := by
  intro ts j' hr t' ht' _
  have := h (Ty.lowers ts) j' hr.lower
  exact Unmasked.child this (ChildAt.variant (env := env) ts j' t' [] ht').lower

/-! ## The readers give the value that the document denotes -/

theorem wasted_append (ts ts' : List Ty) : wasted (ts ++ ts') = wasted ts + wasted ts' := by
  induction ts with
  | nil => simp [wasted]
  | cons t ts ih => cases t <;> simp [wasted, ih] <;> omega

theorem tryAll_conveys (env : Env) (root j : Json) (t : Ty) (v : Val) (loc : Loc) (segs : List Seg) (st' : DState) : ∀ (i : Nat) (ts : List Ty) (n : Nat) (st : DState),
    ts[i]? = some t →
    (∀ k t', k < i → ts[k]? = some t' → ∀ st, ∃ w, deser env root j false t' (env.fresh t') loc segs st = .done false w { st with next := st.next + wasted [t'] }) →
    deser env root j false t (env.fresh t) loc segs { st with next := st.next + wasted (ts.take i) } = .done true v st' →
    tryAll env root j ts n loc segs st = .done true (.alt (n + i) v) st' := by
  intro i
  induction i with
  | zero =>
    intro ts n st h1 _ h3
    cases ts with
    | nil => cases h1
    | cons t' ts =>
      cases h1
      have h3 : deser env root j false t (env.fresh t) loc segs st = .done true v st' := h3
      rw [tryAll, h3]
      rfl
  | succ i ih =>
    intro ts n st h1 h2 h3
    cases ts with
    | nil => cases h1
    | cons t' ts =>
      obtain ⟨w, hw⟩ := h2 0 t' (by omega) rfl st
      rw [tryAll, hw]
      have : wasted ((t' :: ts).take (i + 1)) = wasted [t'] + wasted (ts.take i) := wasted_append [t'] (ts.take i)
      rw [this] at h3
      rw [show n + (i + 1) = n + 1 + i by omega]
      refine ih ts (n + 1) _ h1 (fun k t' hk ht' => h2 (k + 1) t' (by omega) ht') ?_
      rw [← Nat.add_assoc] at h3
      exact h3

theorem conveys_read (env : Env) (root : Json) : ∀ j t, Calm env j → AltsUnmasked env t j → ∀ loc target st v st',
    Conveys env root t loc j target st v st' → ∀ exc segs, deser env root j exc t target loc segs st = .done true v st' := by
  apply lexInd
  intro j t ihj iht hc hv loc target st v st' h exc segs
  have same : ∀ (t : Ty) (js : List Json), (∀ (i : Nat) (j : Json), js[i]? = some j → ∀ loc st v st',
      Conveys env root t loc j (env.fresh t) st v st' → ∀ segs, deser env root j exc t (env.fresh t) loc segs st = .done true v st') →
      ∀ k loc segs st vs st', ConveysAll env root t k loc js st vs st' →
      runSame env t exc (js.map (deser env root)) k loc segs st = .done true vs st' := by
    intro t js
    induction js with
    | nil => intro _ k loc segs st vs st' h; cases h; rfl
    | cons j js ih =>
      intro hj k loc segs st vs st' h
      cases h with
      | cons _ _ _ _ _ _ v st1 vs _ h1 h2 =>
        simp only [List.map_cons, runSame, hj 0 j rfl _ _ _ _ h1]
        rw [ih (fun i j hi => hj (i + 1) j hi) _ _ _ _ _ _ h2]
        rfl
  cases h with
  | prim p _ _ _ _ pv h => rw [deser_prim, (desPrim_ok env p j pv).2 h]
  | vec t _ js _ _ vs _ h =>
    rw [deser_vec]
    simp only
    rw [same t js (fun i j hj loc st v st' h segs => ihj j (size_item (List.mem_of_getElem? hj)) t (hc.item (List.mem_of_getElem? hj))
      (hv.child (ChildAt.vec (env := env) t js i j [] hj)) loc _ st v st' h exc segs) _ _ _ _ _ _ h]
    rfl
  | arr n t _ js _ _ vs _ hn h =>
    rw [deser_arr]
    simp only
    rw [same t js (fun i j hj loc st v st' h segs => ihj j (size_item (List.mem_of_getElem? hj)) t (hc.item (List.mem_of_getElem? hj))
      (hv.child (ChildAt.arr (env := env) n t js i j [] hj)) loc _ st v st' h exc segs) _ _ _ _ _ _ h, if_pos hn]
  | set t _ js _ _ vs _ h =>
    rw [deser_set]
    simp only
    rw [same t js (fun i j hj loc st v st' h segs => ihj j (size_item (List.mem_of_getElem? hj)) t (hc.item (List.mem_of_getElem? hj))
      (hv.child (ChildAt.set (env := env) t js i j [] hj)) loc _ st v st' h exc segs) _ _ _ _ _ _ h]
    rfl
  | dict t _ js _ _ vs _ h =>
    rw [deser_dict]
    simp only
    rw [same _ js (fun i j hj loc st v st' h segs => ihj j (size_item (List.mem_of_getElem? hj)) _ (hc.item (List.mem_of_getElem? hj))
      (hv.child (ChildAt.dict (env := env) t js i j [] hj)) loc _ st v st' h exc segs) _ _ _ _ _ _ h]
    rfl
  | map o t _ ms _ _ kvs _ h =>
    have entries : ∀ (ms : List (Str × Json)), (∀ (i : Nat) (p : Str × Json), ms[i]? = some p → ∀ loc st v st',
        Conveys env root t loc p.2 (env.fresh t) st v st' → ∀ segs, deser env root p.2 exc t (env.fresh t) loc segs st = .done true v st') →
        ∀ k loc segs st vs st', ConveysEntries env root t k loc ms st vs st' →
        runEntries env t exc (ms.map fun p => (p.1, deser env root p.2)) k loc segs st = .done true vs st' := by
      intro ms
      induction ms with
      | nil => intro _ k loc segs st vs st' h; cases h; rfl
      | cons p ms ih =>
        intro hj k loc segs st vs st' h
        cases h with
        | cons _ _ _ key j _ _ v st1 vs _ h1 h2 =>
          simp only [List.map_cons, runEntries]
          rw [hj 0 (key, j) rfl _ _ _ _ h1]
          simp only
          rw [ih (fun i j hi => hj (i + 1) j hi) _ _ _ _ _ _ h2]
          rfl
    rw [deser_map]
    simp only
    rw [entries ms (fun i p hp loc st v st' h segs => ihj p.2 (size_field (List.mem_of_getElem? hp)) t (hc.field (List.mem_of_getElem? hp))
      (hv.child (ChildAt.map (env := env) o t ms i p [] hp)) loc _ st v st' h exc segs) _ _ _ _ _ _ h]
    rfl
  | tuple ts _ js _ _ vs _ h =>
    have each : ∀ (js : List Json) (ts : List Ty), (∀ (i : Nat) (t : Ty) (j : Json), ts[i]? = some t → js[i]? = some j → ∀ loc target st v st',
        Conveys env root t loc j target st v st' → ∀ segs, deser env root j exc t target loc segs st = .done true v st') →
        ∀ targets k loc segs st vs st', ConveysEach env root ts k loc js targets st vs st' →
        js.length = ts.length ∧ runTuple env exc (js.map (deser env root)) ts targets k loc segs st = .done true vs st' := by
      intro js
      induction js with
      | nil => intro ts _ targets k loc segs st vs st' h; cases h; exact ⟨rfl, rfl⟩
      | cons j js ih =>
        intro ts hj targets k loc segs st vs st' h
        cases h with
        | cons t ts _ _ _ _ _ _ v st1 vs _ h1 h2 =>
          obtain ⟨l1, l2⟩ := ih ts (fun i t j hi hi' => hj (i + 1) t j hi hi') _ _ _ segs _ _ _ h2
          refine ⟨by simp [l1], ?_⟩
          simp only [List.map_cons, runTuple]
          rw [hj 0 t j rfl rfl _ _ _ _ _ h1]
          simp only
          rw [l2]
          rfl
    obtain ⟨l1, l2⟩ := each js ts (fun i t j ht hj loc tg st v st' h segs => ihj j (size_item (List.mem_of_getElem? hj)) t (hc.item (List.mem_of_getElem? hj))
      (hv.child (ChildAt.tuple (env := env) ts js i t j [] ht hj)) loc tg st v st' h exc segs) _ _ _ segs _ _ _ h
    rw [deser_tuple]
    simp only
    rw [if_pos l1, l2]
    rfl
  | variant ts _ _ _ _ i t v _ h1 h2 h3 =>
    have hm := List.mem_of_getElem? h1
    rw [deser_variant, tryAll_conveys env root j t v loc segs st' i ts 0 st h1]
    · simp
    · intro k t' hk ht' st
      obtain ⟨f1, f2⟩ := h2 k t' hk ht'
      exact traceless_refused env root j t' f1 hc f2 (hv ts j .self t' (List.mem_of_getElem? ht') f1) _ loc segs st
    · exact iht t (size_alt hm) hc (hv.child (ChildAt.variant (env := env) ts j t [] hm)) loc _ _ v st' h3 false segs
  | cls c _ ms _ _ vs _ h =>
    have members : ∀ (l : List Member), (∀ m ∈ l, ∀ i j, findMember m.name ms = some (i, j) → ∀ loc target st v st',
        Conveys env root m.ty loc j target st v st' → ∀ segs, deser env root j exc m.ty target loc segs st = .done true v st') →
        ∀ targets st vs st', ConveysMembers env root loc ms l targets st vs st' →
        runMembers env exc (ms.map fun p => (p.1, deser env root p.2)) loc segs l targets true st = .done true vs st' := by
      intro l
      induction l with
      | nil => intro _ targets st vs st' h; cases h; rfl
      | cons m l ih =>
        intro hj targets st vs st' h
        have ih := ih fun m hm => hj m (by simp [hm])
        cases h with
        | present _ _ _ _ _ _ i j v st1 vs _ hf hk h1 h2 =>
          simp only [runMembers, findMember_map, hf, Option.map_some, hk, if_false, hj m (by simp) i j hf _ _ _ _ _ h1, ih _ _ _ _ h2]
          rfl
        | some _ _ _ _ _ _ i j v st1 vs _ hf hk h1 h2 =>
          simp only [runMembers, findMember_map, hf, Option.map_some, hk, if_true, hj m (by simp) i j hf _ _ _ _ _ h1, ih _ _ _ _ h2]
          rfl
        | none _ _ _ _ _ _ vs _ hf hk h2 =>
          simp only [runMembers, findMember_map, hf, Option.map_none, hk, ih _ _ _ _ h2]
          rfl
        | keep _ _ _ _ _ _ vs _ hf hk h2 =>
          simp only [runMembers, findMember_map, hf, Option.map_none, hk, ih _ _ _ _ h2]
          rfl
    rw [deser_cls]
    simp only
    rw [members (env.members c) (fun m hm i j hf loc tg st v st' h segs => ihj j (size_field (findMember_mem hf)) m.ty (hc.field (findMember_mem hf))
      (hv.child (ChildAt.cls (env := env) c ms m i j [] hm hf)) loc tg st v st' h exc segs) _ _ _ _ h]
    rfl
  | uptr t _ _ _ _ v _ h => rw [deser_uptr, iht t (by simp) hc (hv.child (ChildAt.uptr (env := env) t j [])) loc _ _ v st' h exc segs]
  | sptr t _ _ _ _ v st1 hr h =>
    rw [deser_sptr, hr]
    simp only
    rw [iht t (by simp) hc (hv.child (ChildAt.sptr (env := env) t j [] hr)) loc _ _ v st1 h exc segs]
  | ref t _ _ _ _ p toks q a v hr h1 h2 h3 =>
    rw [deser_sptr, hr]
    simp only [readRef, h1, h2, h3, if_true]

end Verif.Core
