import Verif.ConveysTyped

/-!
# Documents without references denote a value if they conform

Conformance is conformance to the type with `std::unique_ptr` in place of `std::shared_ptr` (`Fails env.lower t.lower`).
-/

namespace Verif.Core
open Verif.Numeric Verif.EnumConv

/-- All alternatives of variants, except the last ones, leave no shared object behind if they are refused. -/
def Tame (env : Env) (T : Ty) (root : Json) : Prop := ∀ ts j, Reach env T root (.variant ts) j → ∀ (k : Nat) (t : Ty), k + 1 < ts.length → ts[k]? = some t →
  Traceless env t j

/-- All alternatives of variants, except the last ones, have no shared pointers, except at the top. -/
def TameTypes (env : Env) (T : Ty) : Prop := ∀ ts, Within env T (.variant ts) → ∀ (k : Nat) (t : Ty), k + 1 < ts.length → ts[k]? = some t →
  Sharefree env t ∨ ∃ u, t = .sptr u ∧ Sharefree env u

theorem Tame.child {env : Env} {t t' : Ty} {j j' : Json} {loc loc' : Loc} (h : Tame env t j) (hc : ChildAt env t j loc t' j' loc') : Tame env t' j' :=
  fun ts j2 hr => h ts j2 (.of_child hc hr)

theorem ChildAt.types {env : Env} {t t' : Ty} {j j' : Json} {loc loc' : Loc} (h : ChildAt env t j loc t' j' loc') : Inner env t t' := by
  cases h with
  | vec => exact .vec _
  | arr => exact .arr _ _
  | set => exact .set _
  | dict => exact .dict _
  | map => exact .map _ _
  | tuple _ _ _ _ _ _ h => exact .tuple _ _ (List.mem_of_getElem? h)
  | variant _ _ _ _ h => exact .variant _ _ h
  | cls _ _ _ _ _ _ h => exact .cls _ _ h
  | uptr => exact .uptr _
  | sptr => exact .sptr _

theorem TameTypes.tame {env : Env} {T : Ty} {root : Json} (h : TameTypes env T) (hn : root.noRef) : Tame env T root := by
  have key : ∀ t j, Reach env T root t j → Within env T t ∧ j.noRef := by
    intro t j hr
    induction hr with
    | self => exact ⟨.self, hn⟩
    | child _ _ _ _ _ _ _ hc ih => exact ⟨.inner _ _ ih.1 hc.types, hc.noRef ih.2⟩
  intro ts j hr k t hk ht
  obtain ⟨hw, hj⟩ := key _ _ hr
  rcases h ts hw k t hk ht with h | ⟨u, h, h'⟩
  · exact .inl h
  · exact .inr ⟨u, h, h', noRef_refMember hj⟩

theorem leaf_lowered {env : Env} {p : Prim} {j : Json} {pv : PVal} (h : LeafReads env.lower p j pv) : LeafReads env p j pv := by
  cases h with
  | null => exact .null
  | bool b => exact .bool b
  | int t v h => exact .int t v h
  | flt t n => exact .flt t n
  | str s => exact .str s
  | bytes s bs h => exact .bytes s bs h
  | time s t h => exact .time s t h
  | date s y m d h => exact .date s y m d h
  | enumInt t v h => exact .enumInt t v h
  | enumStr table s v h => exact .enumStr table s v h

/-- The first alternative that does not fail. -/
theorem first_good (P : Ty → Prop) : ∀ (ts : List Ty), ¬ (∀ t ∈ ts, P t) → ∃ (i : Nat) (t : Ty), ts[i]? = some t ∧ ¬ P t ∧
    ∀ (k : Nat) (t' : Ty), k < i → ts[k]? = some t' → P t' := by
  intro ts
  induction ts with
  | nil => intro h; exact absurd (by simp) h
  | cons t ts ih =>
    intro h
    by_cases ht : P t
    · obtain ⟨i, t', h1, h2, h3⟩ := ih fun h' => h (List.forall_mem_cons.2 ⟨ht, h'⟩)
      refine ⟨i + 1, t', h1, h2, fun k t2 hk hk2 => ?_⟩
      cases k with
      | zero => cases hk2; exact ht
      | succ k => exact h3 k t2 (by omega) hk2
    · exact ⟨0, t, rfl, ht, fun k _ hk => by omega⟩

/-- What is to be shown of a node. -/
def Meant (env : Env) (root j : Json) (t : Ty) : Prop := ∀ loc target st, ∃ v st', Conveys env root t loc j target st v st'

theorem meant_all (env : Env) (root : Json) (t : Ty) (js : List Json) (h : ∀ j ∈ js, Meant env root j t) : ∀ k loc st,
    ∃ vs st', ConveysAll env root t k loc js st vs st' := by
  induction js with
  | nil => intro k loc st; exact ⟨_, _, .nil _ _ _ _⟩
  | cons j js ih =>
    intro k loc st
    obtain ⟨v, st1, h1⟩ := h j (by simp) (k :: loc) (env.fresh t) st
    obtain ⟨vs, st2, h2⟩ := ih (fun j hj => h j (by simp [hj])) (k + 1) loc st1
    exact ⟨_, _, .cons _ _ _ _ _ _ _ _ _ _ h1 h2⟩

theorem meant_entries (env : Env) (root : Json) (t : Ty) (ms : List (Str × Json)) (h : ∀ p ∈ ms, Meant env root p.2 t) : ∀ k loc st,
    ∃ kvs st', ConveysEntries env root t k loc ms st kvs st' := by
  induction ms with
  | nil => intro k loc st; exact ⟨_, _, .nil _ _ _ _⟩
  | cons p ms ih =>
    intro k loc st
    obtain ⟨key, j⟩ := p
    obtain ⟨v, st1, h1⟩ := h (key, j) (by simp) (k :: loc) (env.fresh t) st
    obtain ⟨vs, st2, h2⟩ := ih (fun j hj => h j (by simp [hj])) (k + 1) loc st1
    exact ⟨_, _, .cons _ _ _ _ _ _ _ _ _ _ _ h1 h2⟩

theorem meant_each (env : Env) (root : Json) (js : List Json) : ∀ (ts : List Ty), js.length = ts.length →
    (∀ (i : Nat) (t : Ty) (j : Json), ts[i]? = some t → js[i]? = some j → Meant env root j t) → ∀ k loc targets st,
    ∃ vs st', ConveysEach env root ts k loc js targets st vs st' := by
  induction js with
  | nil =>
    intro ts hlen h k loc targets st
    cases ts with
    | nil => exact ⟨_, _, .nil _ _ _ _⟩
    | cons t ts => cases hlen
  | cons j js ih =>
    intro ts hlen h k loc targets st
    cases ts with
    | nil => cases hlen
    | cons t ts =>
      obtain ⟨v, st1, h1⟩ := h 0 t j rfl rfl (k :: loc) (targets.headD (env.fresh t)) st
      obtain ⟨vs, st2, h2⟩ := ih ts (by simpa using hlen) (fun i t j ht hj => h (i + 1) t j ht hj) (k + 1) loc targets.tail st1
      exact ⟨_, _, .cons _ _ _ _ _ _ _ _ _ _ _ _ h1 h2⟩

theorem meant_members (env : Env) (root : Json) (fields : List (Str × Json)) (loc : Loc) (ms : List Member)
    (h : ∀ m ∈ ms, (findMember m.name fields = none → m.kind ≠ .required) ∧ ∀ i j, findMember m.name fields = some (i, j) → Meant env root j m.ty) :
    ∀ targets st, ∃ vs st', ConveysMembers env root loc fields ms targets st vs st' := by
  induction ms with
  | nil => intro targets st; exact ⟨_, _, .nil _ _ _ _⟩
  | cons m ms ih =>
    intro targets st
    have ih := ih fun m hm => h m (by simp [hm])
    obtain ⟨h1, h2⟩ := h m (by simp)
    cases hf : findMember m.name fields with
    | none =>
      obtain ⟨vs, st', hv⟩ := ih targets.tail st
      cases hk : m.kind with
      | required => exact absurd hk (h1 hf)
      | optional => exact ⟨_, _, .none _ _ _ _ _ _ _ _ hf hk hv⟩
      | default => exact ⟨_, _, .keep _ _ _ _ _ _ _ _ hf hk hv⟩
    | some q =>
      obtain ⟨i, j⟩ := q
      by_cases hk : m.kind = .optional
      · obtain ⟨v, st1, hv1⟩ := h2 i j hf (i :: loc) (env.fresh m.ty) st
        obtain ⟨vs, st', hv⟩ := ih targets.tail st1
        exact ⟨_, _, .some _ _ _ _ _ _ _ _ _ _ _ _ hf hk hv1 hv⟩
      · obtain ⟨v, st1, hv1⟩ := h2 i j hf (i :: loc) (targets.headD (env.fresh m.ty)) st
        obtain ⟨vs, st', hv⟩ := ih targets.tail st1
        exact ⟨_, _, .present _ _ _ _ _ _ _ _ _ _ _ _ hf hk hv1 hv⟩

/-- A document without references that conforms denotes a value. -/
theorem conforming_meant (env : Env) (root : Json) : ∀ j t, j.noRef → Tame env t j → ¬ Fails env.lower t.lower j → Meant env root j t := by
  apply lexInd
  intro j t ihj iht hn htame hf loc target st
  have at_item : ∀ {js : List Json} {j : Json}, j ∈ js → ∃ i, js[i]? = some j := fun h => List.mem_iff_getElem?.1 h
  cases t with
  | prim p =>
    have : ∃ pv, LeafReads env.lower p j pv := by
      by_contra h
      exact hf (.prim p j fun pv hp => h ⟨pv, hp⟩)
    obtain ⟨pv, hp⟩ := this
    exact ⟨_, _, .prim p loc j target st pv (leaf_lowered hp)⟩
  | vec t =>
    cases j with
    | arr js =>
      obtain ⟨vs, st', h⟩ := meant_all env root t js (fun j hj => ihj j (size_item hj) t (noRef_item hn hj) (htame.child (ChildAt.vec t js (at_item hj).choose j [] (at_item hj).choose_spec))
        fun h => hf (.vec _ _ j hj h)) 0 loc st
      exact ⟨_, _, .vec _ _ _ _ _ _ _ h⟩
    | _ => exact absurd (.array _ _ rfl (by simp)) hf
  | arr n t =>
    cases j with
    | arr js =>
      obtain ⟨vs, st', h⟩ := meant_all env root t js (fun j hj => ihj j (size_item hj) t (noRef_item hn hj) (htame.child (ChildAt.arr n t js (at_item hj).choose j [] (at_item hj).choose_spec))
        fun h => hf (.arr _ _ _ j hj h)) 0 loc st
      have hlen : js.length = n := by
        by_contra h
        exact hf (.arrLength _ _ _ h)
      exact ⟨_, _, .arr _ _ _ _ _ _ _ _ hlen h⟩
    | _ => exact absurd (.array _ _ rfl (by simp)) hf
  | set t =>
    cases j with
    | arr js =>
      obtain ⟨vs, st', h⟩ := meant_all env root t js (fun j hj => ihj j (size_item hj) t (noRef_item hn hj) (htame.child (ChildAt.set t js (at_item hj).choose j [] (at_item hj).choose_spec))
        fun h => hf (.set _ _ j hj h)) 0 loc st
      exact ⟨_, _, .set _ _ _ _ _ _ _ h⟩
    | _ => exact absurd (.array _ _ rfl (by simp)) hf
  | dict t =>
    cases j with
    | arr js =>
      obtain ⟨vs, st', h⟩ := meant_all env root _ js (fun j hj => ihj j (size_item hj) _ (noRef_item hn hj) (htame.child (ChildAt.dict t js (at_item hj).choose j [] (at_item hj).choose_spec))
        fun h => hf (.dict _ _ j hj h)) 0 loc st
      exact ⟨_, _, .dict _ _ _ _ _ _ _ h⟩
    | _ => exact absurd (.array _ _ rfl (by simp)) hf
  | map o t =>
    cases j with
    | obj ms =>
      obtain ⟨vs, st', h⟩ := meant_entries env root t ms (fun p hp => ihj p.2 (size_field hp) t (noRef_field hn hp) (htame.child (ChildAt.map o t ms (List.mem_iff_getElem?.1 hp).choose p [] (List.mem_iff_getElem?.1 hp).choose_spec))
        fun h => hf (.map _ _ _ p hp h)) 0 loc st
      exact ⟨_, _, .map _ _ _ _ _ _ _ _ h⟩
    | _ => exact absurd (.object _ _ rfl (by simp)) hf
  | tuple ts =>
    cases j with
    | arr js =>
      have hlen : js.length = ts.length := by
        by_contra h
        exact hf (.tupleLength _ _ (by rw [lowers_length]; exact h))
      obtain ⟨vs, st', h⟩ := meant_each env root js ts hlen (fun i t j ht hj => by
        have hm := List.mem_of_getElem? hj
        exact ihj j (size_item hm) t (noRef_item hn hm) (htame.child (ChildAt.tuple ts js i t j [] ht hj))
          fun h => hf (.tuple _ _ i t.lower j (by rw [lowers_map, List.getElem?_map, ht]; rfl) hj h)) 0 loc target.components st
      exact ⟨_, _, .tuple _ _ _ _ _ _ _ h⟩
    | _ => exact absurd (.array _ _ rfl (by simp)) hf
  | variant ts =>
    have : ¬ ∀ t ∈ ts, Fails env.lower t.lower j := fun h => hf (.variant _ _ fun t ht => by
      rw [lowers_map] at ht
      obtain ⟨u, hu, rfl⟩ := List.mem_map.1 ht
      exact h u hu)
    obtain ⟨i, t, h1, h2, h3⟩ := first_good (fun t => Fails env.lower t.lower j) ts this
    have hm := List.mem_of_getElem? h1
    obtain ⟨v, st', h⟩ := iht t (size_alt hm) hn (htame.child (ChildAt.variant ts j t [] hm)) h2 loc (env.fresh t) { st with next := st.next + wasted (ts.take i) }
    refine ⟨_, _, .variant ts loc j target st i t v st' h1 (fun k t' hk ht' => ⟨?_, h3 k t' hk ht'⟩) h⟩
    have hlt := (List.getElem?_eq_some_iff.1 h1).1
    exact htame ts j .self k t' (by omega) ht'
  | cls c =>
    cases j with
    | obj ms =>
      obtain ⟨vs, st', h⟩ := meant_members env root ms loc (env.members c) (fun m hm => by
        have hm' : m.lower ∈ env.lower.members c := List.mem_map.2 ⟨m, hm, rfl⟩
        exact ⟨fun h1 h2 => hf (.missing c ms m.lower hm' h1 h2), fun i j hj => ihj j (size_field (findMember_mem hj)) m.ty
          (noRef_field hn (findMember_mem hj)) (htame.child (ChildAt.cls c ms m i j [] hm hj)) fun h => hf (.member c ms m.lower i j hm' hj h)⟩) target.members st
      exact ⟨_, _, .cls _ _ _ _ _ _ _ h⟩
    | _ => exact absurd (.object _ _ rfl (by simp)) hf
  | uptr t =>
    obtain ⟨v, st', h⟩ := iht t (by simp) hn (htame.child (ChildAt.uptr t j [])) (fun h => hf (.uptr _ _ h)) loc (env.ctor t) st
    exact ⟨_, _, .uptr _ _ _ _ _ _ _ h⟩
  | sptr t =>
    obtain ⟨v, st', h⟩ := iht t (by simp) hn (htame.child (ChildAt.sptr t j [] (noRef_refMember hn))) (fun h => hf (.uptr _ _ h)) loc (env.ctor t) { st with next := st.next + 1 }
    exact ⟨_, _, .sptr _ _ _ _ _ _ _ (noRef_refMember hn) h⟩

end Verif.Core
