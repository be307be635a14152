import Verif.Conveys
import Mathlib.Data.List.Forall2

/-!
# Reading after members have been added to classes

`env` is the program before a change, `env'` the program after it: some classes have new members that are optional or have
defaults. `Grown` relates values of the old classes and values of the new classes that agree in the old members. The two readers
behave alike on documents in which the new names do not occur: they give related values, the same truth values, the same exceptions.
-/

namespace Verif.Core
open Verif.Numeric Verif.EnumConv

/-! ## Specification -/

/-- Values without components that are the same in both programs. -/
def Val.inert : Val → Prop
  | .prim _ | .absent | .nullptr => True
  | _ => False

mutual
/-- The second value is the first one with values for new members. -/
inductive Grown (env env' : Env) : Ty → Val → Val → Prop
  | prim (p : Prim) (v : Val) : Grown env env' (.prim p) v v
  | inert (t : Ty) (v : Val) : v.inert → Grown env env' t v v
  | vec (t : Ty) (vs vs' : List Val) : GrownAll env env' t vs vs' → Grown env env' (.vec t) (.seq vs) (.seq vs')
  | arr (n : Nat) (t : Ty) (vs vs' : List Val) : GrownAll env env' t vs vs' → Grown env env' (.arr n t) (.tup vs) (.tup vs')
  | set (t : Ty) (vs vs' : List Val) : GrownAll env env' t vs vs' → Grown env env' (.set t) (.set vs) (.set vs')
  | map (o : Bool) (t : Ty) (kvs kvs' : List (Str × Val)) : GrownEntries env env' t kvs kvs' → Grown env env' (.map o t) (.map kvs) (.map kvs')
  | dict (t : Ty) (kvs kvs' : List (Str × Val)) : GrownEntries env env' t kvs kvs' → Grown env env' (.dict t) (.dict kvs) (.dict kvs')
  | tuple (ts : List Ty) (vs vs' : List Val) : GrownEach env env' ts vs vs' → Grown env env' (.tuple ts) (.tup vs) (.tup vs')
  | variant (ts : List Ty) (i : Nat) (t : Ty) (v v' : Val) : ts[i]? = some t → Grown env env' t v v' → Grown env env' (.variant ts) (.alt i v) (.alt i v')
  | cls (c : Nat) (vs vs' : List Val) : GrownMembers env env' (env.members c) (env'.members c) vs vs' → Grown env env' (.cls c) (.obj vs) (.obj vs')
  | uptr (t : Ty) (v v' : Val) : Grown env env' t v v' → Grown env env' (.uptr t) (.uptr v) (.uptr v')
  | sptr (t : Ty) (a : Nat) (v v' : Val) : Grown env env' t v v' → Grown env env' (.sptr t) (.sptr a v) (.sptr a v')

/-- Elements of the same type. -/
inductive GrownAll (env env' : Env) : Ty → List Val → List Val → Prop
  | nil (t : Ty) : GrownAll env env' t [] []
  | cons (t : Ty) (v v' : Val) (vs vs' : List Val) : Grown env env' t v v' → GrownAll env env' t vs vs' → GrownAll env env' t (v :: vs) (v' :: vs')

/-- Values with the same keys. -/
inductive GrownEntries (env env' : Env) : Ty → List (Str × Val) → List (Str × Val) → Prop
  | nil (t : Ty) : GrownEntries env env' t [] []
  | cons (t : Ty) (k : Str) (v v' : Val) (kvs kvs' : List (Str × Val)) : Grown env env' t v v' → GrownEntries env env' t kvs kvs' →
      GrownEntries env env' t ((k, v) :: kvs) ((k, v') :: kvs')

/-- Components of their types. -/
inductive GrownEach (env env' : Env) : List Ty → List Val → List Val → Prop
  | nil (ts : List Ty) : GrownEach env env' ts [] []
  | cons (t : Ty) (ts : List Ty) (v v' : Val) (vs vs' : List Val) : Grown env env' t v v' → GrownEach env env' ts vs vs' →
      GrownEach env env' (t :: ts) (v :: vs) (v' :: vs')

/-- Values of the old members, and of the old and new members. -/
inductive GrownMembers (env env' : Env) : List Member → List Member → List Val → List Val → Prop
  | nil : GrownMembers env env' [] [] [] []
  | same (m : Member) (ms ms' : List Member) (v v' : Val) (vs vs' : List Val) : m.kind ≠ .optional → Grown env env' m.ty v v' →
      GrownMembers env env' ms ms' vs vs' → GrownMembers env env' (m :: ms) (m :: ms') (v :: vs) (v' :: vs')
  | absent (m : Member) (ms ms' : List Member) (vs vs' : List Val) : m.kind = .optional → GrownMembers env env' ms ms' vs vs' →
      GrownMembers env env' (m :: ms) (m :: ms') (.absent :: vs) (.absent :: vs')
  | present (m : Member) (ms ms' : List Member) (v v' : Val) (vs vs' : List Val) : m.kind = .optional → Grown env env' m.ty v v' →
      GrownMembers env env' ms ms' vs vs' → GrownMembers env env' (m :: ms) (m :: ms') (.present v :: vs) (.present v' :: vs')
  | new (m : Member) (ms ms' : List Member) (v' : Val) (vs vs' : List Val) : GrownMembers env env' ms ms' vs vs' →
      GrownMembers env env' ms (m :: ms') vs (v' :: vs')
end

/-- The second list has all members of the first one in the same order, and others with a property. -/
inductive Adds (P : Member → Prop) : List Member → List Member → Prop
  | nil : Adds P [] []
  | same (m : Member) (ms ms' : List Member) : Adds P ms ms' → Adds P (m :: ms) (m :: ms')
  | new (m : Member) (ms ms' : List Member) : P m → Adds P ms ms' → Adds P ms (m :: ms')

/-- Wherever the document is read as an object of a class, new members of the class are not in the document and need not be. -/
def Unused (env env' : Env) (t : Ty) (j : Json) : Prop :=
  ∀ c fields, Reach env t j (.cls c) (.obj fields) → Adds (Irrelevant fields) (env.members c) (env'.members c)

mutual
/-- None of these names is a key in the document. -/
def NoKeys (names : List Str) : Json → Prop
  | .arr js => NoKeysAll names js
  | .obj ms => NoKeysFields names ms
  | _ => True

/-- `NoKeys` for the elements of an array. -/
def NoKeysAll (names : List Str) : List Json → Prop
  | [] => True
  | j :: js => NoKeys names j ∧ NoKeysAll names js

/-- `NoKeys` for the members of an object. -/
def NoKeysFields (names : List Str) : List (Str × Json) → Prop
  | [] => True
  | (k, j) :: ms => k ∉ names ∧ NoKeys names j ∧ NoKeysFields names ms
end

/-- The programs differ in the classes only: new variables agree in the old members, and the order of set elements depends on the old
members only. -/
structure Kin (env env' : Env) : Prop where
  names : env'.DistinctNames
  clk : env'.clk = env.clk
  fragment : env'.fragment = env.fragment
  fresh : ∀ t, Grown env env' t (env.fresh t) (env'.fresh t)
  ctor : ∀ t, Grown env env' t (env.ctor t) (env'.ctor t)
  less : ∀ t v v' w w', Grown env env' t v v' → Grown env env' t w w' → env'.less v' w' = env.less v w

/-! ## Simulation -/

theorem Unused.child {env env' : Env} {t t' : Ty} {j j' : Json} {loc loc' : Loc} (h : Unused env env' t j) (hc : ChildAt env t j loc t' j' loc') :
    Unused env env' t' j' := fun c fields hr => h c fields (.of_child hc hr)

/-- The tables of shared objects agree but for new members. -/
def SimSt (env env' : Env) (st st' : DState) : Prop :=
  st.next = st'.next ∧ List.Forall₂ (fun e e' => e.1 = e'.1 ∧ e.2.1 = e'.2.1 ∧ e.2.2.1 = e'.2.2.1 ∧ Grown env env' e.2.2.1 e.2.2.2 e'.2.2.2) st.refs st'.refs

/-- The outcomes agree but for new members. -/
inductive SimRes (env env' : Env) {α β : Type} (R : Bool → α → β → Prop) : DRes α → DRes β → Prop
  | ub : SimRes env env' R .ub .ub
  | threw (s : List Seg) (e : Err) : SimRes env env' R (.threw s e) (.threw s e)
  | done (ok : Bool) (a : α) (b : β) (st st' : DState) : R ok a b → SimSt env env' st st' → SimRes env env' R (.done ok a st) (.done ok b st')

theorem SimRes.map {env env' : Env} {α β γ δ : Type} {R : Bool → α → β → Prop} {S : Bool → γ → δ → Prop} {f : α → γ} {g : β → δ} {r : DRes α} {r' : DRes β}
    (h : SimRes env env' R r r') (hf : ∀ ok a b, R ok a b → S ok (f a) (g b)) : SimRes env env' S (r.map f) (r'.map g) := by
  cases h with
  | ub => exact .ub
  | threw s e => exact .threw s e
  | done ok a b st st' h hs => exact .done ok _ _ _ _ (hf ok a b h) hs

theorem SimRes.reject {env env' : Env} {α β : Type} {R : Bool → α → β → Prop} (exc : Bool) (segs : List Seg) (e : Err) {a : α} {b : β} {st st' : DState}
    (h : R false a b) (hs : SimSt env env' st st') : SimRes env env' R (.reject exc segs e a st) (.reject exc segs e b st') := by
  cases exc
  · exact .done _ _ _ _ _ h hs
  · exact .threw _ _

theorem simSt_get {env env' : Env} {st st' : DState} (h : SimSt env env' st st') (loc : Loc) :
    (st.get loc = none ∧ st'.get loc = none) ∨
    ∃ a t v v', st.get loc = some (a, t, v) ∧ st'.get loc = some (a, t, v') ∧ Grown env env' t v v' := by
  obtain ⟨-, h⟩ := h
  unfold DState.get
  generalize st.refs = l at h
  generalize st'.refs = l' at h
  induction h with
  | nil => exact .inl ⟨rfl, rfl⟩
  | @cons e e' l l' he _ ih =>
    obtain ⟨k, a, t, v⟩ := e
    obtain ⟨k', a', t', v'⟩ := e'
    obtain ⟨rfl, rfl, rfl, hg⟩ := he
    simp only [List.lookup]
    cases hk : loc == k with
    | true => exact .inr ⟨a, t, v, v', rfl, rfl, hg⟩
    | false => exact ih

theorem simSt_put {env env' : Env} {st st' : DState} (h : SimSt env env' st st') (loc : Loc) (a : Nat) (t : Ty) (v v' : Val) (hg : Grown env env' t v v') :
    SimSt env env' (st.put loc (a, t, v)) (st'.put loc (a, t, v')) := by
  have hl := simSt_get h loc
  unfold DState.get at hl
  unfold DState.put
  rcases hl with ⟨h1, h2⟩ | ⟨a, t, v, v', h1, h2, -⟩
  · rw [h1, h2]
    exact ⟨h.1, .cons ⟨rfl, rfl, rfl, hg⟩ h.2⟩
  · rw [h1, h2]
    exact h

theorem simSt_next {env env' : Env} {st st' : DState} (h : SimSt env env' st st') : SimSt env env' { st with next := st.next + 1 } { st' with next := st'.next + 1 } :=
  ⟨congrArg (· + 1) h.1, h.2⟩

theorem grownAll_insert {env env' : Env} (hk : Kin env env') {t : Ty} {v v' : Val} (hv : Grown env env' t v v') {vs vs' : List Val} (h : GrownAll env env' t vs vs') :
    GrownAll env env' t (setInsert env.less v vs) (setInsert env'.less v' vs') := by
  induction vs generalizing vs' with
  | nil =>
    cases h
    exact .cons _ _ _ _ _ hv (.nil _)
  | cons w vs ih =>
    cases h with
    | cons _ _ w' _ vs' hw h =>
      rw [setInsert, setInsert, hk.less t _ _ _ _ hw hv, hk.less t _ _ _ _ hv hw]
      split
      · exact .cons _ _ _ _ _ hw (ih h)
      · split
        · exact .cons _ _ _ _ _ hv (.cons _ _ _ _ _ hw h)
        · exact .cons _ _ _ _ _ hw h

theorem grownAll_fold {env env' : Env} (hk : Kin env env') {t : Ty} {vs vs' : List Val} (h : GrownAll env env' t vs vs') {s s' : List Val}
    (hs : GrownAll env env' t s s') : GrownAll env env' t (vs.foldl (fun s v => setInsert env.less v s) s) (vs'.foldl (fun s v => setInsert env'.less v s) s') := by
  induction vs generalizing vs' s s' with
  | nil =>
    cases h
    exact hs
  | cons v vs ih =>
    cases h with
    | cons _ _ v' _ vs' hv h => exact ih h (grownAll_insert hk hv hs)

theorem grown_assign {env env' : Env} {t : Ty} (k : Str) {v v' : Val} (hv : Grown env env' t v v') {s s' : List (Str × Val)} (hs : GrownEntries env env' t s s') :
    GrownEntries env env' t (mapAssign k v s) (mapAssign k v' s') := by
  induction s generalizing s' with
  | nil =>
    cases hs
    exact .cons _ _ _ _ _ _ hv (.nil _)
  | cons p s ih =>
    cases hs with
    | cons _ k' w w' _ s' hw hs =>
      rw [mapAssign, mapAssign]
      split
      · exact .cons _ _ _ _ _ _ hv hs
      · split
        · exact .cons _ _ _ _ _ _ hw (ih hs)
        · exact .cons _ _ _ _ _ _ hv (.cons _ _ _ _ _ _ hw hs)

theorem grown_assigns {env env' : Env} {t : Ty} {kvs kvs' : List (Str × Val)} (h : GrownEntries env env' t kvs kvs') {s s' : List (Str × Val)}
    (hs : GrownEntries env env' t s s') : GrownEntries env env' t (kvs.foldl (fun s p => mapAssign p.1 p.2 s) s) (kvs'.foldl (fun s p => mapAssign p.1 p.2 s) s') := by
  induction kvs generalizing kvs' s s' with
  | nil =>
    cases h
    exact hs
  | cons p kvs ih =>
    cases h with
    | cons _ k v v' _ kvs' hv h => exact ih h (grown_assign k hv hs)

theorem grown_prim {env env' : Env} {p : Prim} {v v' : Val} (h : Grown env env' (.prim p) v v') : v' = v := by
  cases h <;> rfl

theorem desPrim_kin {env env' : Env} (hk : Kin env env') (p : Prim) (j : Json) : desPrim env' p j = desPrim env p j := by
  cases p <;> simp only [desPrim, hk.clk]

theorem tokens_kin {env env' : Env} (hk : Kin env env') (s : Str) : pointerTokens env' s = pointerTokens env s := by
  cases s with
  | nil => rfl
  | cons c s => rw [pointerTokens, pointerTokens, hk.fragment]

/-- A pair that was read has a string and a second component. -/
def PairLike (v : Val) : Prop := ∃ k w, v = .tup [.prim (.str k), w]

theorem pair_read (env : Env) (root j : Json) (exc : Bool) (t : Ty) (target : Val) (loc : Loc) (segs : List Seg) (st : DState) (v : Val) (st' : DState)
    (h : deser env root j exc (.tuple [.prim .str, t]) target loc segs st = .done true v st') : PairLike v := by
  rw [deser_tuple] at h
  cases j with
  | arr js =>
    simp only at h
    split at h
    · rename_i hl
      match js, hl with
      | [j1, j2], _ =>
        simp only [List.map_cons, List.map_nil, runTuple, deser_prim] at h
        cases j1 with
        | str s =>
          simp only [desPrim] at h
          cases h2 : deser env root j2 exc t (target.components.tail.headD (env.fresh t)) ((0 + 1) :: loc) (.index (0 + 1) :: segs) st with
          | ub => rw [h2] at h; cases h
          | threw s e => rw [h2] at h; cases h
          | done ok w st2 =>
            rw [h2] at h
            cases ok
            · cases h
            · cases h
              exact ⟨s, w, rfl⟩
        | _ =>
          simp only [desPrim, DRes.reject] at h
          cases exc <;> cases h
    · cases exc <;> cases h
  | _ => cases exc <;> cases h

theorem grown_dictEntry {env env' : Env} {t : Ty} {v v' : Val} (hp : PairLike v) (h : Grown env env' (.tuple [.prim .str, t]) v v') :
    (dictEntry v).1 = (dictEntry v').1 ∧ Grown env env' t (dictEntry v).2 (dictEntry v').2 := by
  obtain ⟨k, w, rfl⟩ := hp
  cases h with
  | inert _ _ h => exact h.elim
  | tuple _ _ vs' h =>
    cases h with
    | cons _ _ _ v1 _ _ h1 h =>
      cases h with
      | cons _ _ _ v2 _ _ h2 h =>
        cases h
        obtain rfl := grown_prim h1
        exact ⟨rfl, h2⟩

theorem grown_dictEntries {env env' : Env} {t : Ty} {vs vs' : List Val} (h : GrownAll env env' (.tuple [.prim .str, t]) vs vs') (hp : ∀ v ∈ vs, PairLike v) :
    GrownEntries env env' t (vs.map dictEntry) (vs'.map dictEntry) := by
  induction vs generalizing vs' with
  | nil =>
    cases h
    exact .nil _
  | cons v vs ih =>
    cases h with
    | cons _ _ v' _ vs' hv h =>
      have hd := grown_dictEntry (hp v List.mem_cons_self) hv
      have := GrownEntries.cons t (dictEntry v).1 _ _ _ _ hd.2 (ih h fun v hv => hp v (List.mem_cons_of_mem _ hv))
      rw [List.map_cons, List.map_cons]
      conv at this => arg 5; rw [hd.1]
      exact this

/-- How targets of members correspond. -/
inductive GrownTargets (env env' : Env) : List Member → List Member → List Val → List Val → Prop
  | nil (ts ts' : List Val) : GrownTargets env env' [] [] ts ts'
  | same (m : Member) (ms ms' : List Member) (ts ts' : List Val) :
      (m.kind ≠ .optional → Grown env env' m.ty (ts.headD (env.fresh m.ty)) (ts'.headD (env'.fresh m.ty))) →
      GrownTargets env env' ms ms' ts.tail ts'.tail → GrownTargets env env' (m :: ms) (m :: ms') ts ts'
  | new (m : Member) (ms ms' : List Member) (ts ts' : List Val) : GrownTargets env env' ms ms' ts ts'.tail → GrownTargets env env' ms (m :: ms') ts ts'

theorem grownTargets_of {env env' : Env} (hk : Kin env env') {P : Member → Prop} {c : Nat} (ha : Adds P (env.members c) (env'.members c)) {v v' : Val}
    (h : Grown env env' (.cls c) v v') : GrownTargets env env' (env.members c) (env'.members c) v.members v'.members := by
  have empty : ∀ ms ms', Adds P ms ms' → GrownTargets env env' ms ms' [] [] := by
    intro ms ms' ha
    induction ha with
    | nil => exact .nil _ _
    | same m ms ms' _ ih => exact .same _ _ _ _ _ (fun _ => hk.fresh _) ih
    | new m ms ms' _ _ ih => exact .new _ _ _ _ _ ih
  cases h with
  | inert _ v h =>
    cases v <;> first | exact h.elim | exact empty _ _ ha
  | cls _ vs vs' h =>
    simp only [Val.members]
    clear ha empty
    generalize env.members c = ms at h
    generalize env'.members c = ms' at h
    induction vs' generalizing ms ms' vs with
    | nil =>
      cases h
      exact .nil _ _
    | cons v' vs' ih =>
      cases h with
      | same m ms ms' v _ vs _ hk' hv h => exact .same _ _ _ _ _ (fun _ => hv) (ih _ _ _ h)
      | absent m ms ms' vs _ hk' h => exact .same _ _ _ _ _ (fun h' => absurd hk' h') (ih _ _ _ h)
      | present m ms ms' v _ vs _ hk' hv h => exact .same _ _ _ _ _ (fun h' => absurd hk' h') (ih _ _ _ h)
      | new m ms ms' _ _ _ h => exact .new _ _ _ _ _ (ih _ _ _ h)

/-- The readers of the two programs behave alike on a node. -/
def Sim (env env' : Env) (root j : Json) (t : Ty) : Prop := ∀ exc target target' loc segs st st', Grown env env' t target target' → SimSt env env' st st' →
  SimRes env env' (fun _ => Grown env env' t) (deser env root j exc t target loc segs st) (deser env' root j exc t target' loc segs st')

theorem sim_same {env env' : Env} (hk : Kin env env') (root : Json) (t : Ty) (P : Val → Prop) (exc : Bool) (js : List Json)
    (h : ∀ j ∈ js, Sim env env' root j t) (hp : ∀ j target loc segs st v st', deser env root j exc t target loc segs st = .done true v st' → P v) :
    ∀ k loc segs st st', SimSt env env' st st' → SimRes env env' (fun _ vs vs' => GrownAll env env' t vs vs' ∧ ∀ v ∈ vs, P v)
      (runSame env t exc (js.map (deser env root)) k loc segs st) (runSame env' t exc (js.map (deser env' root)) k loc segs st') := by
  induction js with
  | nil => intro k loc segs st st' hs; exact .done _ _ _ _ _ ⟨.nil _, by simp⟩ hs
  | cons j js ih =>
    intro k loc segs st st' hs
    simp only [List.map_cons, runSame]
    have h1 := h j (by simp) exc _ _ (k :: loc) (.index k :: segs) st st' (hk.fresh t) hs
    have hp1 := hp j (env.fresh t) (k :: loc) (.index k :: segs) st
    generalize deser env root j exc t (env.fresh t) (k :: loc) (.index k :: segs) st = r at h1 hp1
    generalize deser env' root j exc t (env'.fresh t) (k :: loc) (.index k :: segs) st' = r' at h1
    cases h1 with
    | ub => exact .ub
    | threw s e => exact .threw s e
    | done ok v v' st1 st1' hv hs1 =>
      cases ok
      · exact .done _ _ _ _ _ ⟨.nil _, by simp⟩ hs1
      · refine (ih (fun j hj => h j (by simp [hj])) (k + 1) loc segs st1 st1' hs1).map fun ok vs vs' hvs => ⟨.cons _ _ _ _ _ hv hvs.1, ?_⟩
        intro w hw
        rcases List.mem_cons.1 hw with rfl | hw
        · exact hp1 _ _ rfl
        · exact hvs.2 w hw

theorem sim_entries {env env' : Env} (hk : Kin env env') (root : Json) (t : Ty) (exc : Bool) (ms : List (Str × Json)) (h : ∀ p ∈ ms, Sim env env' root p.2 t) :
    ∀ k loc segs st st', SimSt env env' st st' → SimRes env env' (fun _ => GrownEntries env env' t)
      (runEntries env t exc (ms.map fun p => (p.1, deser env root p.2)) k loc segs st)
      (runEntries env' t exc (ms.map fun p => (p.1, deser env' root p.2)) k loc segs st') := by
  induction ms with
  | nil => intro k loc segs st st' hs; exact .done _ _ _ _ _ (.nil _) hs
  | cons p ms ih =>
    intro k loc segs st st' hs
    simp only [List.map_cons, runEntries]
    have h1 := h p (by simp) exc _ _ (k :: loc) (Seg.name (cstr p.1) :: segs) st st' (hk.fresh t) hs
    generalize deser env root p.2 exc t (env.fresh t) (k :: loc) (Seg.name (cstr p.1) :: segs) st = r at h1
    generalize deser env' root p.2 exc t (env'.fresh t) (k :: loc) (Seg.name (cstr p.1) :: segs) st' = r' at h1
    cases h1 with
    | ub => exact .ub
    | threw s e => exact .threw s e
    | done ok v v' st1 st1' hv hs1 =>
      cases ok
      · exact .done _ _ _ _ _ (.nil _) hs1
      · exact (ih (fun p hp => h p (by simp [hp])) (k + 1) loc segs st1 st1' hs1).map fun ok vs vs' hvs => .cons _ _ _ _ _ _ hv hvs

theorem sim_tuple {env env' : Env} (hk : Kin env env') (root : Json) (exc : Bool) (js : List Json) : ∀ ts : List Ty,
    (∀ (i : Nat) j t, js[i]? = some j → ts[i]? = some t → Sim env env' root j t) →
    ∀ vs vs' k loc segs st st', GrownEach env env' ts vs vs' → SimSt env env' st st' → SimRes env env' (fun _ => GrownEach env env' ts)
      (runTuple env exc (js.map (deser env root)) ts vs k loc segs st)
      (runTuple env' exc (js.map (deser env' root)) ts vs' k loc segs st') := by
  induction js with
  | nil =>
    intro ts h vs vs' k loc segs st st' hv hs
    cases ts <;> exact .done _ _ _ _ _ (.nil _) hs
  | cons j js ih =>
    intro ts h vs vs' k loc segs st st' hv hs
    cases ts with
    | nil => exact .done _ _ _ _ _ (.nil _) hs
    | cons t ts =>
      simp only [List.map_cons, runTuple]
      have hh : Grown env env' t (vs.headD (env.fresh t)) (vs'.headD (env'.fresh t)) ∧ GrownEach env env' ts vs.tail vs'.tail := by
        cases hv with
        | nil => exact ⟨hk.fresh t, .nil _⟩
        | cons _ _ _ _ _ _ h1 h2 => exact ⟨h1, h2⟩
      have h1 := h 0 j t rfl rfl exc _ _ (k :: loc) (.index k :: segs) st st' hh.1 hs
      generalize deser env root j exc t (vs.headD (env.fresh t)) (k :: loc) (.index k :: segs) st = r at h1
      generalize deser env' root j exc t (vs'.headD (env'.fresh t)) (k :: loc) (.index k :: segs) st' = r' at h1
      cases h1 with
      | ub => exact .ub
      | threw s e => exact .threw s e
      | done ok v v' st1 st1' hv1 hs1 =>
        cases ok
        · exact .done _ _ _ _ _ (.cons _ _ _ _ _ _ hv1 hh.2) hs1
        · exact (ih ts (fun i j t hj ht => h (i + 1) j t hj ht) vs.tail vs'.tail (k + 1) loc segs st1 st1' hh.2 hs1).map
            fun ok vs vs' hvs => .cons _ _ _ _ _ _ hv1 hvs

theorem Adds.mem {P : Member → Prop} {ms ms' : List Member} (h : Adds P ms ms') {m : Member} (hm : m ∈ ms) : m ∈ ms' := by
  induction h with
  | nil => exact hm
  | same m' _ _ _ ih =>
    rcases List.mem_cons.1 hm with rfl | hm
    · exact List.mem_cons_self
    · exact List.mem_cons_of_mem _ (ih hm)
  | new m' _ _ _ _ ih => exact List.mem_cons_of_mem _ (ih hm)

theorem GrownTargets.mem {env env' : Env} {ms ms' : List Member} {ts ts' : List Val} (h : GrownTargets env env' ms ms' ts ts') {m : Member} (hm : m ∈ ms) : m ∈ ms' := by
  induction h with
  | nil => exact hm
  | same m' _ _ _ _ _ _ ih =>
    rcases List.mem_cons.1 hm with rfl | hm
    · exact List.mem_cons_self
    · exact List.mem_cons_of_mem _ (ih hm)
  | new m' _ _ _ _ _ ih => exact List.mem_cons_of_mem _ (ih hm)

theorem sim_members {env env' : Env} (hk : Kin env env') (root : Json) (exc : Bool) (fields : List (Str × Json)) (loc : Loc) (segs : List Seg)
    {ms ms' : List Member} (hn : (ms'.map (·.name)).Nodup) (ha : Adds (Irrelevant fields) ms ms')
    (h : ∀ m ∈ ms, ∀ i j, findMember m.name fields = some (i, j) → Sim env env' root j m.ty) :
    ∀ ts ts' res st st', GrownTargets env env' ms ms' ts ts' → SimSt env env' st st' → SimRes env env' (fun _ => GrownMembers env env' ms ms')
      (runMembers env exc (fields.map fun p => (p.1, deser env root p.2)) loc segs ms ts res st)
      (runMembers env' exc (fields.map fun p => (p.1, deser env' root p.2)) loc segs ms' ts' res st') := by
  have find' : ∀ (m : Member) (env : Env), findMember m.name (fields.map fun p => (p.1, deser env root p.2)) =
      (findMember m.name fields).map fun q => (q.1, deser env root q.2) := by
    intro m env
    rw [findMember_map]
  induction ha with
  | nil =>
    intro ts ts' res st st' hg hs
    exact .done _ _ _ _ _ .nil hs
  | new m ms ms' hi ha ih =>
    obtain ⟨hf, hkind⟩ := hi
    intro ts ts' res st st' hg hs
    obtain ⟨hm, hn⟩ := List.nodup_cons.1 hn
    cases hg with
    | same _ ms0 _ _ _ ht hg => exact absurd (List.mem_map_of_mem (ha.mem List.mem_cons_self)) hm
    | new _ _ _ _ _ hg =>
      have h1 := ih hn h ts ts'.tail res st st' hg hs
      conv => arg 5; rw [runMembers, find', hf]
      have hmap : ∀ r r', SimRes env env' (fun _ => GrownMembers env env' ms ms') r r' → ∀ w,
          SimRes env env' (fun _ => GrownMembers env env' ms (m :: ms')) r (r'.map (w :: ·)) := by
        intro r r' hr w
        cases hr with
        | ub => exact .ub
        | threw s e => exact .threw s e
        | done ok a b st st' hab hs => exact .done _ _ _ _ _ (.new _ _ _ _ _ _ hab) hs
      cases hm : m.kind with
      | required => exact absurd hm hkind
      | optional => exact hmap _ _ h1 _
      | default => exact hmap _ _ h1 _
  | same m ms ms' ha ih =>
    intro ts ts' res st st' hg hs
    obtain ⟨hm, hn⟩ := List.nodup_cons.1 hn
    cases hg with
    | new _ _ _ _ _ hg => exact absurd (List.mem_map_of_mem (hg.mem List.mem_cons_self)) hm
    | same _ _ _ _ _ ht hg =>
      have ih := ih hn (fun m hm => h m (List.mem_cons_of_mem _ hm)) ts.tail ts'.tail
      have h := h m List.mem_cons_self
      rw [runMembers, runMembers, find', find']
      cases hf : findMember m.name fields with
      | none =>
        simp only [Option.map_none]
        cases hkind : m.kind with
        | optional => exact (ih res st st' hg hs).map fun ok vs vs' hvs => .absent _ _ _ _ _ hkind hvs
        | default => exact (ih res st st' hg hs).map fun ok vs vs' hvs => .same _ _ _ _ _ _ _ (by rw [hkind]; exact nofun) (ht (by rw [hkind]; exact nofun)) hvs
        | required =>
          cases exc
          · exact (ih false st st' hg hs).map fun ok vs vs' hvs => .same _ _ _ _ _ _ _ (by rw [hkind]; exact nofun) (ht (by rw [hkind]; exact nofun)) hvs
          · exact .threw _ _
      | some q =>
        obtain ⟨i, j⟩ := q
        simp only [Option.map_some]
        by_cases hkind : m.kind = .optional
        · have h1 := h i j hf exc _ _ (i :: loc) (Seg.name (cstr m.name) :: segs) st st' (hk.fresh m.ty) hs
          simp only [if_pos hkind]
          generalize deser env root j exc m.ty (env.fresh m.ty) (i :: loc) (Seg.name (cstr m.name) :: segs) st = r at h1
          generalize deser env' root j exc m.ty (env'.fresh m.ty) (i :: loc) (Seg.name (cstr m.name) :: segs) st' = r' at h1
          cases h1 with
          | ub => exact .ub
          | threw s e => exact .threw s e
          | done ok v v' st1 st1' hv hs1 => exact (ih ok st1 st1' hg hs1).map fun ok vs vs' hvs => .present _ _ _ _ _ _ _ hkind hv hvs
        · have h1 := h i j hf exc _ _ (i :: loc) (Seg.name (cstr m.name) :: segs) st st' (ht hkind) hs
          simp only [if_neg hkind]
          generalize deser env root j exc m.ty (ts.headD (env.fresh m.ty)) (i :: loc) (Seg.name (cstr m.name) :: segs) st = r at h1
          generalize deser env' root j exc m.ty (ts'.headD (env'.fresh m.ty)) (i :: loc) (Seg.name (cstr m.name) :: segs) st' = r' at h1
          cases h1 with
          | ub => exact .ub
          | threw s e => exact .threw s e
          | done ok v v' st1 st1' hv hs1 => exact (ih ok st1 st1' hg hs1).map fun ok vs vs' hvs => .same _ _ _ _ _ _ _ hkind hv hvs

theorem sim_readRef {env env' : Env} (hk : Kin env env') (root : Json) (t : Ty) (r : Json) {target target' : Val} {st st' : DState}
    (ht : Grown env env' (.sptr t) target target') (hs : SimSt env env' st st') :
    SimRes env env' (fun _ => Grown env env' (.sptr t)) (readRef env root t r target st) (readRef env' root t r target' st') := by
  unfold readRef
  cases r with
  | str p =>
    simp only [tokens_kin hk]
    cases pointerTokens env p with
    | none => exact .ub
    | some toks =>
      simp only
      cases pointerGet root toks with
      | none => exact .done _ _ _ _ _ ht hs
      | some q =>
        simp only
        rcases simSt_get hs q.reverse with ⟨h1, h2⟩ | ⟨a, t', v, v', h1, h2, hg⟩
        · rw [h1, h2]
          exact .done _ _ _ _ _ ht hs
        · rw [h1, h2]
          simp only
          split
          · rename_i heq
            subst heq
            exact .done _ _ _ _ _ (.sptr _ _ _ _ hg) hs
          · exact .ub
  | _ => exact .ub

theorem sim_tryAll {env env' : Env} (hk : Kin env env') (root j : Json) (all : List Ty) (loc : Loc) (segs : List Seg) (ts : List Ty) :
    ∀ i, (∀ k, all[i + k]? = ts[k]?) → (∀ t ∈ ts, Sim env env' root j t) → ∀ st st', SimSt env env' st st' →
    SimRes env env' (fun ok v v' => ok = true → Grown env env' (.variant all) v v') (tryAll env root j ts i loc segs st) (tryAll env' root j ts i loc segs st') := by
  induction ts with
  | nil => intro i _ _ st st' hs; exact .done _ _ _ _ _ nofun hs
  | cons t ts ih =>
    intro i hi h st st' hs
    rw [tryAll, tryAll]
    have h1 := h t List.mem_cons_self false _ _ loc segs st st' (hk.fresh t) hs
    generalize deser env root j false t (env.fresh t) loc segs st = r at h1
    generalize deser env' root j false t (env'.fresh t) loc segs st' = r' at h1
    cases h1 with
    | ub => exact .ub
    | threw s e => exact .threw s e
    | done ok v v' st1 st1' hv hs1 =>
      cases ok
      · refine ih (i + 1) (fun k => ?_) (fun t ht => h t (List.mem_cons_of_mem _ ht)) st1 st1' hs1
        have := hi (k + 1)
        rw [List.getElem?_cons_succ] at this
        rw [← this]
        congr 1
        omega
      · exact .done _ _ _ _ _ (fun _ => .variant _ _ _ _ _ (hi 0) hv) hs1

/-- The readers of the two programs behave alike on documents in which the new names do not occur. -/
theorem sim {env env' : Env} (hk : Kin env env') (root : Json) : ∀ j t, Unused env env' t j → Sim env env' root j t := by
  refine lexInd fun j t ihj iht hu => ?_
  intro exc target target' loc segs st st' ht hs
  have bad : ∀ e, SimRes env env' (fun _ => Grown env env' t) (.reject exc segs e target st) (.reject exc segs e target' st') := fun e => .reject _ _ _ ht hs
  cases t with
  | prim p =>
    obtain rfl := grown_prim ht
    rw [deser_prim, deser_prim, desPrim_kin hk]
    cases desPrim env p j with
    | ub => exact .ub
    | reject e => exact .reject _ _ _ (.prim _ _) hs
    | ok pv => exact .done _ _ _ _ _ (.prim _ _) hs
  | vec t =>
    rw [deser_vec, deser_vec]
    cases j with
    | arr js =>
      refine (sim_same hk root t (fun _ => True) exc js (fun j hj => ?_) (fun _ _ _ _ _ _ _ _ => trivial) 0 loc segs st st' hs).map
        fun ok vs vs' h => .vec _ _ _ h.1
      obtain ⟨i, hi⟩ := List.mem_iff_getElem?.1 hj
      exact ihj j (size_item hj) t (hu.child (.vec t js i j loc hi))
    | _ => exact bad _
  | arr n t =>
    rw [deser_arr, deser_arr]
    cases j with
    | arr js =>
      simp only
      split
      · have h1 := sim_same hk root t (fun _ => True) exc js (fun j hj => by
          obtain ⟨i, hi⟩ := List.mem_iff_getElem?.1 hj
          exact ihj j (size_item hj) t (hu.child (.arr n t js i j loc hi))) (fun _ _ _ _ _ _ _ _ => trivial) 0 loc segs st st' hs
        generalize runSame env t exc (js.map (deser env root)) 0 loc segs st = r at h1
        generalize runSame env' t exc (js.map (deser env' root)) 0 loc segs st' = r' at h1
        cases h1 with
        | ub => exact .ub
        | threw s e => exact .threw s e
        | done ok v v' st1 st1' hv hs1 =>
          cases ok
          · exact .done _ _ _ _ _ ht hs1
          · exact .done _ _ _ _ _ (.arr _ _ _ _ hv.1) hs1
      · exact bad _
    | _ => exact bad _
  | set t =>
    rw [deser_set, deser_set]
    cases j with
    | arr js =>
      refine (sim_same hk root t (fun _ => True) exc js (fun j hj => ?_) (fun _ _ _ _ _ _ _ _ => trivial) 0 loc segs st st' hs).map
        fun ok vs vs' h => .set _ _ _ (grownAll_fold hk h.1 (.nil _))
      obtain ⟨i, hi⟩ := List.mem_iff_getElem?.1 hj
      exact ihj j (size_item hj) t (hu.child (.set t js i j loc hi))
    | _ => exact bad _
  | map o t =>
    rw [deser_map, deser_map]
    cases j with
    | obj ms =>
      refine (sim_entries hk root t exc ms (fun p hp => ?_) 0 loc segs st st' hs).map fun ok vs vs' h => .map _ _ _ _ (grown_assigns h (.nil _))
      obtain ⟨i, hi⟩ := List.mem_iff_getElem?.1 hp
      exact ihj p.2 (size_field hp) t (hu.child (.map o t ms i p loc hi))
    | _ => exact bad _
  | dict t =>
    rw [deser_dict, deser_dict]
    cases j with
    | arr js =>
      refine (sim_same hk root (.tuple [.prim .str, t]) PairLike exc js (fun j hj => ?_) (fun j target loc segs st v st' h => pair_read env root j exc t target loc segs st v st' h)
        0 loc segs st st' hs).map fun ok vs vs' h => .dict _ _ _ ?_
      · obtain ⟨i, hi⟩ := List.mem_iff_getElem?.1 hj
        exact ihj j (size_item hj) _ (hu.child (.dict t js i j loc hi))
      · exact grown_dictEntries h.1 h.2
    | _ => exact bad _
  | tuple ts =>
    rw [deser_tuple, deser_tuple]
    cases j with
    | arr js =>
      simp only
      split
      · have hc : GrownEach env env' ts target.components target'.components := by
          cases ht with
          | inert _ v h => cases target <;> first | exact h.elim | exact .nil _
          | tuple _ _ _ h => exact h
        refine (sim_tuple hk root exc js ts (fun i j t hj ht => ?_) _ _ 0 loc segs st st' hc hs).map fun ok vs vs' h => .tuple _ _ _ h
        exact ihj j (size_item (List.mem_of_getElem? hj)) t (hu.child (.tuple ts js i t j loc ht hj))
      · exact bad _
    | _ => exact bad _
  | variant ts =>
    rw [deser_variant, deser_variant]
    have h1 := sim_tryAll hk root j ts loc segs ts 0 (fun k => by rw [Nat.zero_add]) (fun t ht => iht t (size_alt ht) (hu.child (.variant ts j t loc ht))) st st' hs
    generalize tryAll env root j ts 0 loc segs st = r at h1
    generalize tryAll env' root j ts 0 loc segs st' = r' at h1
    cases h1 with
    | ub => exact .ub
    | threw s e => exact .threw s e
    | done ok v v' st1 st1' hv hs1 =>
      cases ok
      · exact .reject _ _ _ ht hs1
      · exact .done _ _ _ _ _ (hv rfl) hs1
  | cls c =>
    rw [deser_cls, deser_cls]
    cases j with
    | obj fields =>
      have ha := hu c fields .self
      refine (sim_members hk root exc fields loc segs (hk.names c) ha (fun m hm i j hf => ?_) _ _ true st st' (grownTargets_of hk ha ht) hs).map
        fun ok vs vs' h => .cls _ _ _ h
      exact ihj j (size_field (findMember_mem hf)) m.ty (hu.child (.cls c fields m i j loc hm hf))
    | _ => exact bad _
  | uptr t =>
    rw [deser_uptr, deser_uptr]
    have h1 := iht t (by simp) (hu.child (.uptr t j loc)) exc _ _ loc segs st st' (hk.ctor t) hs
    generalize deser env root j exc t (env.ctor t) loc segs st = r at h1
    generalize deser env' root j exc t (env'.ctor t) loc segs st' = r' at h1
    cases h1 with
    | ub => exact .ub
    | threw s e => exact .threw s e
    | done ok v v' st1 st1' hv hs1 =>
      cases ok
      · exact .done _ _ _ _ _ ht hs1
      · exact .done _ _ _ _ _ (.uptr _ _ _ hv) hs1
  | sptr t =>
    rw [deser_sptr, deser_sptr]
    cases hr : refMember j with
    | some r => exact sim_readRef hk root t r ht hs
    | none =>
      simp only
      have h1 := iht t (by simp) (hu.child (.sptr t j loc hr)) exc _ _ loc segs _ _ (hk.ctor t) (simSt_next hs)
      generalize deser env root j exc t (env.ctor t) loc segs { st with next := st.next + 1 } = r at h1
      generalize deser env' root j exc t (env'.ctor t) loc segs { st' with next := st'.next + 1 } = r' at h1
      rw [← hs.1]
      cases h1 with
      | ub => exact .ub
      | threw s e => exact .threw s e
      | done ok v v' st1 st1' hv hs1 =>
        cases ok
        · exact .done _ _ _ _ _ (.sptr _ _ _ _ hv) hs1
        · exact .done _ _ _ _ _ (.sptr _ _ _ _ hv) (simSt_put hs1 _ _ _ _ _ hv)

end Verif.Core
