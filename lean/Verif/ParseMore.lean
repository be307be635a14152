import Verif.ParseFacts
import Verif.ReadMore

/-!
# More about the streaming parser: addresses, room on the stack, order of members, previous content
-/

namespace Verif.Core
open Verif.Numeric Verif.EnumConv

/-! ## Successful steps -/

theorem child_iff {α : Type} {env : Env} {host : Host} {K : List HClass} {c : HClass} {t : Ty} {target : Val} {n : Nat} {outer : Val → Val}
    {f : PFn} {k : Val → Nat → LRes α} {a : α} {n' : Nat} : withChild env host K c t target n outer f k = .ok a n' ↔
    room host K c = true ∧ ∃ v m, f K (openP env t target n).1 (openP env t target n).2.2 = .ok v m ∧
      k (outer ((openP env t target n).2.1 v)) m = .ok a n' := by
  unfold withChild
  generalize openP env t target n = o
  obtain ⟨h, w, n1⟩ := o
  by_cases hr : room host K c = true
  · simp only [hr, if_true, true_and]
    cases hf : f K h n1 <;> simp
  · simp [hr]

theorem vec_iff {env : Env} {host : Host} {K : List HClass} {t : Ty} {e : Event} {f : PFn} {rest : List (Event × PFn)} {vs us : List Val} {n m : Nat} :
    loopVec env host K t ((e, f) :: rest) vs n = .ok us m ↔
    (∃ p pv, direct t = some p ∧ leafParse env p e = .ok pv ∧ loopVec env host K t rest (vs ++ [.prim pv]) n = .ok us m) ∨
    (direct t = none ∧ isToken t e = true ∧
      withChild env host K (.parser t) t (env.ctor t) n id f (fun v n' => loopVec env host K t rest (vs ++ [v]) n') = .ok us m) := by
  rw [loopVec]
  cases direct t with
  | some p => cases hl : leafParse env p e <;> simp [hl]
  | none => cases isToken t e <;> simp

theorem set_iff {env : Env} {host : Host} {K : List HClass} {t : Ty} {e : Event} {f : PFn} {rest : List (Event × PFn)} {st vs us : List Val} {n m : Nat} :
    loopSet env host K t ((e, f) :: rest) st vs n = .ok us m ↔
    (∃ p pv, direct t = some p ∧ leafParse env p e = .ok pv ∧ loopSet env host K t rest st (setInsert env.less (.prim pv) vs) n = .ok us m) ∨
    (direct t = none ∧ isToken t e = true ∧
      withChild env host K (.parser t) t (env.ctor t) n id f (fun v n' => loopSet env host K t rest (st ++ [v]) vs n') = .ok us m) := by
  rw [loopSet]
  cases direct t with
  | some p => cases hl : leafParse env p e <;> simp [hl]
  | none => cases isToken t e <;> simp

theorem fix_iff {env : Env} {host : Host} {K : List HClass} {C : Ty} {ts : List Ty} {e : Event} {f : PFn} {rest : List (Event × PFn)} {i : Nat}
    {vs us : List Val} {n m : Nat} : loopFix env host K C ts ((e, f) :: rest) i vs n = .ok us m ↔
    ∃ t, ts[i]? = some t ∧ room host K (.fixed C (i + 1)) = true ∧
      withChild env host (.fixed C (i + 1) :: K) (.parser t) t (vs.getD i (env.ctor t)) n id f
        (fun v n' => loopFix env host K C ts rest (i + 1) (vs.set i v) n') = .ok us m := by
  rw [loopFix]
  cases ts[i]? with
  | none => simp
  | some t => cases room host K (.fixed C (i + 1)) <;> simp

/-- Handler class, initial object and wrapping for a member. -/
def Member.cls (m : Member) : HClass := if m.kind = .optional then .optional m.ty else .parser m.ty

/-- The object into which a member is read. -/
def Member.target (env : Env) (m : Member) (old : Option Val) : Val := if m.kind = .optional then env.ctor m.ty else old.getD (env.ctor m.ty)

/-- What is stored. -/
def Member.outer (m : Member) (v : Val) : Val := if m.kind = .optional then .present v else v

theorem obj_iff {env : Env} {host : Host} {K : List HClass} {c : Nat} {k : Str} {f : PFn} {rest : List (Str × PFn)} {vs us : List Val} {n n' : Nat} :
    loopObj env host K c ((k, f) :: rest) vs n = .ok us n' ↔
    ∃ i m, selectMember env host c k = .member i ∧ (env.members c)[i]? = some m ∧
      withChild env host K m.cls m.ty (m.target env vs[i]?) n m.outer f (fun v n' => loopObj env host K c rest (vs.set i v) n') = .ok us n' := by
  rw [loopObj]
  cases selectMember env host c k with
  | reject => simp
  | memoryError => simp
  | member i =>
    simp only [PerfectHash.Dispatch.member.injEq, exists_and_left, exists_eq_left']
    cases (env.members c)[i]? with
    | none => simp
    | some m =>
      simp only [Option.some.injEq, exists_eq_left', Member.cls, Member.target]
      have ho : m.outer = if m.kind = .optional then .present else id := by
        funext v; unfold Member.outer; split <;> rfl
      rw [ho]
      split <;> simp [List.getD_eq_getElem?_getD]

/-! ## Addresses: types without shared pointers do not use them -/

/-- The handler fills an object without shared pointers. -/
def Handler.unshared : Handler → Bool
  | .vecStart t _ => t.unshared
  | .setStart t _ => t.unshared
  | .fixStart _ ts _ => Ty.unshareds ts
  | .mapStart _ t _ => t.unshared
  | _ => true

theorem openP_unshared (env : Env) : ∀ (t : Ty) (target : Val) (n : Nat), t.unshared = true →
    (openP env t target n).1.unshared = true ∧ ∀ n', openP env t target n' = ((openP env t target n).1, (openP env t target n).2.1, n')
  | .prim p, target, n, _ => ⟨rfl, fun _ => rfl⟩
  | .vec t, target, n, h => ⟨h, fun _ => rfl⟩
  | .arr k t, target, n, h => ⟨by
      simp only [openP, Handler.unshared]
      rw [Ty.unshareds_iff]
      intro t' ht'
      rw [(List.mem_replicate.1 ht').2]
      exact h, fun _ => rfl⟩
  | .set t, target, n, h => ⟨h, fun _ => rfl⟩
  | .map o t, target, n, h => ⟨h, fun _ => rfl⟩
  | .dict t, target, n, h => ⟨by simpa [openP, Handler.unshared, Ty.unshared, Ty.unshareds] using h, fun _ => rfl⟩
  | .tuple ts, target, n, h => ⟨h, fun _ => rfl⟩
  | .variant ts, target, n, h => ⟨rfl, fun _ => rfl⟩
  | .cls c, target, n, h => by
    by_cases hc : env.members c = []
    · simp only [openP, if_pos hc]; exact ⟨rfl, fun _ => trivial⟩
    · simp only [openP, if_neg hc]; exact ⟨rfl, fun _ => trivial⟩
  | .uptr t, target, n, h => by
    obtain ⟨h1, h2⟩ := openP_unshared env t (env.ctor t) n h
    refine ⟨h1, fun n' => ?_⟩
    simp only [openP, h2 n']
  | .sptr t, target, n, h => by simp [Ty.unshared] at h

/-- Reading neither uses nor consumes addresses. -/
def Steady (f : PFn) : Prop := ∀ K h n v m, h.unshared = true → f K h n = .ok v m → m = n ∧ ∀ n', f K h n' = .ok v n'

/-- The same for what follows. -/
def LSteady {α : Type} (f : Nat → LRes α) : Prop := ∀ n a m, f n = .ok a m → m = n ∧ ∀ n', f n' = .ok a n'

theorem child_steady {α : Type} (env : Env) (host : Host) (K : List HClass) (c : HClass) (t : Ty) (ht : t.unshared = true) (target : Val)
    (outer : Val → Val) (f : PFn) (hf : Steady f) (k : Val → Nat → LRes α) (hk : ∀ v, LSteady (k v)) :
    LSteady fun n => withChild env host K c t target n outer f k := by
  intro n a m h
  obtain ⟨h1, v, m', h2, h3⟩ := child_iff.1 h
  obtain ⟨hu, ho⟩ := openP_unshared env t target n ht
  obtain ⟨rfl, h4⟩ := hf K _ _ _ _ hu h2
  obtain ⟨rfl, h5⟩ := hk _ _ _ _ h3
  refine ⟨by rw [ho n], fun n' => ?_⟩
  rw [child_iff, ho n']
  exact ⟨h1, v, n', h4 n', h5 n'⟩

theorem steady_vec (env : Env) (host : Host) (K : List HClass) (t : Ty) (ht : t.unshared = true) (fs : List (Event × PFn)) (hf : ∀ p ∈ fs, Steady p.2) :
    ∀ vs, LSteady fun n => loopVec env host K t fs vs n := by
  induction fs with
  | nil => intro vs n a m h; cases h; exact ⟨rfl, fun _ => rfl⟩
  | cons p fs ih =>
    obtain ⟨e, f⟩ := p
    have ih := ih fun p hp => hf p (by simp [hp])
    intro vs n us m h
    rcases vec_iff.1 h with ⟨p, pv, h1, h2, h3⟩ | ⟨h1, h2, h3⟩
    · obtain ⟨rfl, h4⟩ := ih _ _ _ _ h3
      exact ⟨rfl, fun n' => vec_iff.2 (.inl ⟨p, pv, h1, h2, h4 n'⟩)⟩
    · obtain ⟨rfl, h4⟩ := child_steady env host K _ t ht _ _ f (hf (e, f) (by simp)) _ (fun v => ih _) _ _ _ h3
      exact ⟨rfl, fun n' => vec_iff.2 (.inr ⟨h1, h2, h4 n'⟩)⟩

theorem steady_set (env : Env) (host : Host) (K : List HClass) (t : Ty) (ht : t.unshared = true) (fs : List (Event × PFn)) (hf : ∀ p ∈ fs, Steady p.2) :
    ∀ st vs, LSteady fun n => loopSet env host K t fs st vs n := by
  induction fs with
  | nil => intro st vs n a m h; cases h; exact ⟨rfl, fun _ => rfl⟩
  | cons p fs ih =>
    obtain ⟨e, f⟩ := p
    have ih := ih fun p hp => hf p (by simp [hp])
    intro st vs n us m h
    rcases set_iff.1 h with ⟨p, pv, h1, h2, h3⟩ | ⟨h1, h2, h3⟩
    · obtain ⟨rfl, h4⟩ := ih _ _ _ _ _ h3
      exact ⟨rfl, fun n' => set_iff.2 (.inl ⟨p, pv, h1, h2, h4 n'⟩)⟩
    · obtain ⟨rfl, h4⟩ := child_steady env host K _ t ht _ _ f (hf (e, f) (by simp)) _ (fun v => ih _ _) _ _ _ h3
      exact ⟨rfl, fun n' => set_iff.2 (.inr ⟨h1, h2, h4 n'⟩)⟩

theorem steady_fix (env : Env) (host : Host) (K : List HClass) (C : Ty) (ts : List Ty) (ht : Ty.unshareds ts = true) (fs : List (Event × PFn))
    (hf : ∀ p ∈ fs, Steady p.2) : ∀ i vs, LSteady fun n => loopFix env host K C ts fs i vs n := by
  induction fs with
  | nil =>
    intro i vs n a m h
    simp only [loopFix] at h
    split at h
    · rename_i hi
      cases h
      exact ⟨rfl, fun n' => by simp only [loopFix, if_pos hi]⟩
    · cases h
  | cons p fs ih =>
    obtain ⟨e, f⟩ := p
    have ih := ih fun p hp => hf p (by simp [hp])
    intro i vs n us m h
    obtain ⟨t, h1, h2, h3⟩ := fix_iff.1 h
    obtain ⟨rfl, h4⟩ := child_steady env host _ _ t ((Ty.unshareds_iff ts).1 ht t (List.mem_of_getElem? h1)) _ _ f (hf (e, f) (by simp)) _
      (fun v => ih _ _) _ _ _ h3
    exact ⟨rfl, fun n' => fix_iff.2 ⟨t, h1, h2, h4 n'⟩⟩

theorem steady_map (env : Env) (host : Host) (K : List HClass) (t : Ty) (ht : t.unshared = true) (fs : List (Str × PFn)) (hf : ∀ p ∈ fs, Steady p.2) :
    ∀ kvs, LSteady fun n => loopMap env host K t fs kvs n := by
  induction fs with
  | nil => intro kvs n a m h; cases h; exact ⟨rfl, fun _ => rfl⟩
  | cons p fs ih =>
    obtain ⟨k, f⟩ := p
    have ih := ih fun p hp => hf p (by simp [hp])
    intro kvs
    exact child_steady env host K _ t ht _ _ f (hf (k, f) (by simp)) _ (fun v => ih _)

theorem steady_obj (env : Env) (hu : env.Unshared) (host : Host) (K : List HClass) (c : Nat) (fs : List (Str × PFn)) (hf : ∀ p ∈ fs, Steady p.2) :
    ∀ vs, LSteady fun n => loopObj env host K c fs vs n := by
  induction fs with
  | nil => intro vs n a m h; cases h; exact ⟨rfl, fun _ => rfl⟩
  | cons p fs ih =>
    obtain ⟨k, f⟩ := p
    have ih := ih fun p hp => hf p (by simp [hp])
    intro vs n us n' h
    obtain ⟨i, m, h1, h2, h3⟩ := obj_iff.1 h
    obtain ⟨rfl, h4⟩ := child_steady env host K _ m.ty (hu c m (List.mem_of_getElem? h2)) _ _ f (hf (k, f) (by simp)) _ (fun v => ih _) _ _ _ h3
    exact ⟨rfl, fun n' => obj_iff.2 ⟨i, m, h1, h2, h4 n'⟩⟩

theorem whole_iff {α : Type} {mk : α → Val} {r : LRes α} {v : Val} {n : Nat} : r.whole mk = .ok v n ↔ ∃ a, r = .ok a n ∧ mk a = v := by
  cases r <;> simp [LRes.whole, and_comm]

theorem steady_whole {α : Type} {mk : α → Val} {f : Nat → LRes α} (hf : LSteady f) {n : Nat} {v : Val} {m : Nat} (h : (f n).whole mk = .ok v m) :
    m = n ∧ ∀ n', (f n').whole mk = .ok v n' := by
  obtain ⟨a, h1, h2⟩ := whole_iff.1 h
  obtain ⟨rfl, h3⟩ := hf _ _ _ h1
  exact ⟨rfl, fun n' => whole_iff.2 ⟨a, h3 n', h2⟩⟩

/-- Induction over documents. -/
theorem Json.induct {P : Json → Prop} (scalar : ∀ j, (∀ js, j ≠ .arr js) → (∀ ms, j ≠ .obj ms) → P j)
    (arr : ∀ js, (∀ j ∈ js, P j) → P (.arr js)) (obj : ∀ ms : List (Str × Json), (∀ p ∈ ms, P p.2) → P (.obj ms)) : ∀ j, P j := by
  intro j
  induction hs : sizeOf j using Nat.strongRecOn generalizing j with
  | _ s ih =>
    subst hs
    cases j with
    | arr js =>
      exact arr js fun j hj => ih _ (by
        have := List.sizeOf_lt_of_mem hj; simp only [Json.arr.sizeOf_spec]; omega) j rfl
    | obj ms =>
      exact obj ms fun p hp => ih _ (by
        have := List.sizeOf_lt_of_mem hp
        obtain ⟨k, v⟩ := p
        simp only [Json.obj.sizeOf_spec, Prod.mk.sizeOf_spec] at this ⊢
        omega) p.2 rfl
    | _ => exact scalar _ (by simp) (by simp)

theorem pval_scalar (env : Env) (host : Host) (j : Json) (h1 : ∀ js, j ≠ .arr js) (h2 : ∀ ms, j ≠ .obj ms) : pval env host j = scalar env (first j) := by
  cases j <;> first | rfl | exact absurd rfl (h1 _) | exact absurd rfl (h2 _)

theorem scalar_ok {env : Env} {e : Event} {K : List HClass} {h : Handler} {n : Nat} {v : Val} {m : Nat} (hs : scalar env e K h n = .ok v m) :
    m = n ∧ ∀ K' n', scalar env e K' h n' = .ok v n' := by
  cases h <;> simp only [scalar] at hs ⊢ <;> try cases hs
  split at hs
  · cases hs
  · cases hs
  · split at hs
    · cases hs
    · rename_i hst
      cases hs
      exact ⟨rfl, fun _ n' => by rw [if_neg hst]⟩

theorem array_iff {env : Env} {host : Host} {fs : List (Event × PFn)} {K : List HClass} {h : Handler} {n m : Nat} {v : Val} :
    arrayFn env host fs K h n = .ok v m ↔
    (∃ t vs us, h = .vecStart t vs ∧ room host K (.vecItems t) = true ∧ loopVec env host (.vecItems t :: K) t fs vs n = .ok us m ∧ Val.seq us = v) ∨
    (∃ t vs us, h = .setStart t vs ∧ room host K (.setItems t) = true ∧ loopSet env host (.setItems t :: K) t fs [] vs n = .ok us m ∧ Val.set us = v) ∨
    ∃ C ts vs us, h = .fixStart C ts vs ∧ room host K (.fixed C 0) = true ∧ loopFix env host K C ts fs 0 vs n = .ok us m ∧ Val.tup us = v := by
  cases h <;> simp only [arrayFn]
  case vecStart t vs =>
    by_cases hr : room host K (.vecItems t) = true <;> simp [hr, whole_iff]
  case setStart t vs =>
    by_cases hr : room host K (.setItems t) = true <;> simp [hr, whole_iff]
  case fixStart C ts vs =>
    by_cases hr : room host K (.fixed C 0) = true <;> simp [hr, whole_iff]
  all_goals simp

theorem object_iff {env : Env} {host : Host} {fs : List (Str × PFn)} {K : List HClass} {h : Handler} {n m : Nat} {v : Val} :
    objectFn env host fs K h n = .ok v m ↔
    (∃ C t kvs us, h = .mapStart C t kvs ∧ room host K (.mapItems C) = true ∧ loopMap env host (.mapItems C :: K) t fs kvs n = .ok us m ∧ Val.map us = v) ∨
    ∃ c vs us, h = .objStart c vs ∧ room host K (.object c) = true ∧ loopObj env host (.object c :: K) c fs vs n = .ok us m ∧ Val.obj us = v := by
  cases h <;> simp only [objectFn]
  case mapStart C t vs =>
    by_cases hr : room host K (.mapItems C) = true <;> simp [hr, whole_iff]
  case objStart c vs =>
    by_cases hr : room host K (.object c) = true <;> simp [hr, whole_iff]
  all_goals simp

theorem steady (env : Env) (hu : env.Unshared) (host : Host) : ∀ j, Steady (pval env host j) := by
  intro j
  induction j using Json.induct with
  | scalar j h1 h2 =>
    intro K h n v m _ hv
    rw [pval_scalar env host j h1 h2] at hv ⊢
    obtain ⟨rfl, h3⟩ := scalar_ok hv
    exact ⟨rfl, fun n' => h3 K n'⟩
  | arr js ih =>
    intro K h n v m hun hv
    have hf : ∀ p ∈ pitems env host js, Steady p.2 := by
      rw [pitems_eq]
      simpa using ih
    simp only [pval] at hv ⊢
    rcases array_iff.1 hv with ⟨t, vs, us, rfl, h1, h2, rfl⟩ | ⟨t, vs, us, rfl, h1, h2, rfl⟩ | ⟨C, ts, vs, us, rfl, h1, h2, rfl⟩
    · obtain ⟨rfl, h3⟩ := steady_vec env host _ _ hun _ hf _ _ _ _ h2
      exact ⟨rfl, fun n' => array_iff.2 (.inl ⟨_, _, _, rfl, h1, h3 n', rfl⟩)⟩
    · obtain ⟨rfl, h3⟩ := steady_set env host _ _ hun _ hf _ _ _ _ _ h2
      exact ⟨rfl, fun n' => array_iff.2 (.inr (.inl ⟨_, _, _, rfl, h1, h3 n', rfl⟩))⟩
    · obtain ⟨rfl, h3⟩ := steady_fix env host _ _ _ hun _ hf _ _ _ _ _ h2
      exact ⟨rfl, fun n' => array_iff.2 (.inr (.inr ⟨_, _, _, _, rfl, h1, h3 n', rfl⟩))⟩
  | obj ms ih =>
    intro K h n v m hun hv
    have hf : ∀ p ∈ pfields env host ms, Steady p.2 := by
      rw [pfields_eq]
      intro p hp
      obtain ⟨q, hq, rfl⟩ := List.mem_map.1 hp
      exact ih q hq
    simp only [pval] at hv ⊢
    rcases object_iff.1 hv with ⟨C, t, vs, us, rfl, h1, h2, rfl⟩ | ⟨c, vs, us, rfl, h1, h2, rfl⟩
    · obtain ⟨rfl, h3⟩ := steady_map env host _ _ hun _ hf _ _ _ _ h2
      exact ⟨rfl, fun n' => object_iff.2 (.inl ⟨_, _, _, _, rfl, h1, h3 n', rfl⟩)⟩
    · obtain ⟨rfl, h3⟩ := steady_obj env hu host _ _ _ hf _ _ _ _ h2
      exact ⟨rfl, fun n' => object_iff.2 (.inr ⟨_, _, _, rfl, h1, h3 n', rfl⟩)⟩

/-! ## A shallower stack -/

/-- The stack `K'` takes no more room than `K`. -/
def Smaller (host : Host) (K' K : List HClass) : Prop := K'.length ≤ K.length ∧ used host K' ≤ used host K

theorem Smaller.cons {host : Host} {K' K : List HClass} (h : Smaller host K' K) (c : HClass) : Smaller host (c :: K') (c :: K) := by
  obtain ⟨h1, h2⟩ := h
  exact ⟨by simpa using h1, by simp only [used]; omega⟩

theorem Smaller.room {host : Host} {K' K : List HClass} (h : Smaller host K' K) {c : HClass} (hr : room host K c = true) : Core.room host K' c = true := by
  obtain ⟨h1, h2⟩ := h
  simp only [Core.room, Bool.and_eq_true, decide_eq_true_eq] at hr ⊢
  omega

theorem Smaller.nil (host : Host) (K : List HClass) : Smaller host [] K := ⟨Nat.zero_le _, Nat.zero_le _⟩

/-- What is accepted on a full stack is accepted on an emptier one. -/
def Shrinks (host : Host) (f : PFn) : Prop := ∀ K K' h n v m, Smaller host K' K → f K h n = .ok v m → f K' h n = .ok v m

theorem shrink_child {α : Type} {env : Env} {host : Host} {K K' : List HClass} (hs : Smaller host K' K) {c : HClass} {t : Ty} {target : Val} {n : Nat}
    {outer : Val → Val} {f : PFn} (hf : Shrinks host f) {k k' : Val → Nat → LRes α} {a : α} {m : Nat} (hk : ∀ v n, k v n = .ok a m → k' v n = .ok a m)
    (h : withChild env host K c t target n outer f k = .ok a m) : withChild env host K' c t target n outer f k' = .ok a m := by
  obtain ⟨h1, v, m', h2, h3⟩ := child_iff.1 h
  exact child_iff.2 ⟨hs.room h1, v, m', hf K K' _ _ _ _ hs h2, hk _ _ h3⟩

theorem shrinks (env : Env) (host : Host) : ∀ j, Shrinks host (pval env host j) := by
  intro j
  induction j using Json.induct with
  | scalar j h1 h2 =>
    intro K K' h n v m _ hv
    rw [pval_scalar env host j h1 h2] at hv ⊢
    obtain ⟨rfl, h3⟩ := scalar_ok hv
    exact h3 _ _
  | arr js ih =>
    intro K K' h n v m hs hv
    have hf : ∀ p ∈ pitems env host js, Shrinks host p.2 := by
      rw [pitems_eq]
      simpa using ih
    simp only [pval] at hv ⊢
    generalize pitems env host js = fs at hf hv
    rcases array_iff.1 hv with ⟨t, vs, us, rfl, h1, h2, rfl⟩ | ⟨t, vs, us, rfl, h1, h2, rfl⟩ | ⟨C, ts, vs, us, rfl, h1, h2, rfl⟩
    · refine array_iff.2 (.inl ⟨_, _, _, rfl, hs.room h1, ?_, rfl⟩)
      have hs' := hs.cons (.vecItems t)
      clear hv h1
      induction fs generalizing vs n with
      | nil => exact h2
      | cons p fs ih' =>
        obtain ⟨e, f⟩ := p
        have ih' := fun n => ih' n (fun p hp => hf p (by simp [hp]))
        rcases vec_iff.1 h2 with ⟨p, pv, h1, h2, h3⟩ | ⟨h1, h2, h3⟩
        · exact vec_iff.2 (.inl ⟨p, pv, h1, h2, ih' _ _ h3⟩)
        · exact vec_iff.2 (.inr ⟨h1, h2, shrink_child hs' (hf (e, f) (by simp)) (fun v n => ih' n _) h3⟩)
    · refine array_iff.2 (.inr (.inl ⟨_, _, _, rfl, hs.room h1, ?_, rfl⟩))
      have hs' := hs.cons (.setItems t)
      clear hv h1
      generalize ([] : List Val) = st at h2 ⊢
      induction fs generalizing st vs n with
      | nil => exact h2
      | cons p fs ih' =>
        obtain ⟨e, f⟩ := p
        have ih' := fun n => ih' n (fun p hp => hf p (by simp [hp]))
        rcases set_iff.1 h2 with ⟨p, pv, h1, h2, h3⟩ | ⟨h1, h2, h3⟩
        · exact set_iff.2 (.inl ⟨p, pv, h1, h2, ih' _ _ _ h3⟩)
        · exact set_iff.2 (.inr ⟨h1, h2, shrink_child hs' (hf (e, f) (by simp)) (fun v n => ih' n _ _) h3⟩)
    · refine array_iff.2 (.inr (.inr ⟨_, _, _, _, rfl, hs.room h1, ?_, rfl⟩))
      clear hv h1
      generalize 0 = i at h2 ⊢
      induction fs generalizing i vs n with
      | nil => exact h2
      | cons p fs ih' =>
        obtain ⟨e, f⟩ := p
        have ih' := fun n => ih' n (fun p hp => hf p (by simp [hp]))
        obtain ⟨t, h1, h2, h3⟩ := fix_iff.1 h2
        exact fix_iff.2 ⟨t, h1, hs.room h2, shrink_child (hs.cons _) (hf (e, f) (by simp)) (fun v n => ih' n _ _) h3⟩
  | obj ms ih =>
    intro K K' h n v m hs hv
    have hf : ∀ p ∈ pfields env host ms, Shrinks host p.2 := by
      rw [pfields_eq]
      intro p hp
      obtain ⟨q, hq, rfl⟩ := List.mem_map.1 hp
      exact ih q hq
    simp only [pval] at hv ⊢
    generalize pfields env host ms = fs at hf hv
    rcases object_iff.1 hv with ⟨C, t, vs, us, rfl, h1, h2, rfl⟩ | ⟨c, vs, us, rfl, h1, h2, rfl⟩
    · refine object_iff.2 (.inl ⟨_, _, _, _, rfl, hs.room h1, ?_, rfl⟩)
      have hs' := hs.cons (.mapItems C)
      clear hv h1
      induction fs generalizing vs n with
      | nil => exact h2
      | cons p fs ih' =>
        obtain ⟨k, f⟩ := p
        have ih' := fun n => ih' n (fun p hp => hf p (by simp [hp]))
        exact shrink_child hs' (hf (k, f) (by simp)) (fun v n => ih' n _) h2
    · refine object_iff.2 (.inr ⟨_, _, _, rfl, hs.room h1, ?_, rfl⟩)
      have hs' := hs.cons (.object c)
      clear hv h1
      induction fs generalizing vs n with
      | nil => exact h2
      | cons p fs ih' =>
        obtain ⟨k, f⟩ := p
        have ih' := fun n => ih' n (fun p hp => hf p (by simp [hp]))
        obtain ⟨i, m, h1, h2, h3⟩ := obj_iff.1 h2
        exact obj_iff.2 ⟨i, m, h1, h2, shrink_child hs' (hf (k, f) (by simp)) (fun v n => ih' n _) h3⟩

/-! ## Order of members -/

/-- The reader `f` makes the value `v`, whatever addresses are in use. -/
def Yields (env : Env) (K : List HClass) (f : PFn) (t : Ty) (target v : Val) : Prop :=
  ∀ n, ∃ u, f K (openP env t target n).1 (openP env t target n).2.2 = .ok u n ∧ (openP env t target n).2.1 u = v

theorem child_flat {α : Type} {env : Env} {host : Host} {K : List HClass} {c : HClass} {t : Ty} (ht : t.unshared = true) {target : Val} {n : Nat}
    {outer : Val → Val} {f : PFn} (hf : Steady f) {k : Val → Nat → LRes α} {a : α} {m : Nat} :
    withChild env host K c t target n outer f k = .ok a m ↔ room host K c = true ∧ ∃ v, Yields env K f t target v ∧ k (outer v) n = .ok a m := by
  obtain ⟨hu, ho⟩ := openP_unshared env t target n ht
  rw [child_iff]
  constructor
  · rintro ⟨h1, v, m', h2, h3⟩
    obtain ⟨rfl, h4⟩ := hf _ _ _ _ _ hu h2
    refine ⟨h1, _, fun n' => ?_, by rw [ho n] at h3; exact h3⟩
    rw [ho n']
    exact ⟨v, h4 n', rfl⟩
  · rintro ⟨h1, v, h2, h3⟩
    obtain ⟨u, h4, rfl⟩ := h2 n
    exact ⟨h1, u, n, h4, h3⟩

theorem mapAssign_comm {α : Type} (k k' : Str) (a a' : α) (h : k ≠ k') (l : List (Str × α)) :
    mapAssign k a (mapAssign k' a' l) = mapAssign k' a' (mapAssign k a l) := by
  have asym : ∀ x y : Str, strLess x y = true → strLess y x = false := by
    intro x y hxy
    cases hyx : strLess y x with
    | false => rfl
    | true => have := strLess_trans _ _ _ hxy hyx; rw [strLess_irrefl] at this; exact this.symm
  induction l with
  | nil =>
    simp only [mapAssign, if_neg h, if_neg (Ne.symm h)]
    rcases strLess_trichotomy k k' with h1 | h1 | h1
    · simp [h1, asym _ _ h1]
    · exact absurd h1 h
    · simp [h1, asym _ _ h1]
  | cons p l ih =>
    obtain ⟨k0, a0⟩ := p
    rcases strLess_trichotomy k k' with h1 | h1 | h1
    · have h1' := asym _ _ h1
      grind [mapAssign, strLess_trans, strLess_irrefl]
    · exact absurd h1 h
    · have h1' := asym _ _ h1
      grind [mapAssign, strLess_trans, strLess_irrefl]

theorem lookup_mapAssign_ne {α : Type} (k k' : Str) (a : α) (h : k ≠ k') (l : List (Str × α)) : (mapAssign k' a l).lookup k = l.lookup k := by
  induction l with
  | nil => simp [mapAssign, List.lookup, beq_eq_false_iff_ne.2 h]
  | cons p l ih =>
    obtain ⟨k0, a0⟩ := p
    simp only [mapAssign]
    split
    · rename_i he
      subst he
      simp [List.lookup_cons, beq_eq_false_iff_ne.2 h]
    · split
      · simp only [List.lookup_cons, ih]
      · simp [List.lookup_cons, beq_eq_false_iff_ne.2 h]

/-- The selected member has the key as its name. -/
theorem select_name (env : Env) (host : Host) (hb : TablesBuilt env host) (c : Nat) {k : Str} {i : Nat} {m : Member}
    (h : selectMember env host c k = .member i) (hm : (env.members c)[i]? = some m) : m.name = k := by
  have hc : env.members c ≠ [] := List.ne_nil_of_mem (List.mem_of_getElem? hm)
  rw [selects_of_build env host hb c hc] at h
  cases hat : memberAt (env.members c) k with
  | none => rw [hat] at h; cases h
  | some i' =>
    rw [hat] at h
    cases h
    unfold memberAt at hat
    rw [List.findIdx?_eq_some_iff_getElem] at hat
    obtain ⟨hlt, he, -⟩ := hat
    rw [List.getElem?_eq_getElem hlt] at hm
    cases hm
    simpa using he

/-- Keys of a class select members by name. -/
theorem select_inj (env : Env) (host : Host) (hb : TablesBuilt env host) (c : Nat) {k k' : Str} {i : Nat} {m : Member}
    (h : selectMember env host c k = .member i) (h' : selectMember env host c k' = .member i) (hm : (env.members c)[i]? = some m) : k = k' := by
  rw [← select_name env host hb c h hm, ← select_name env host hb c h' hm]

theorem map_perm (env : Env) (host : Host) (K : List HClass) (t : Ty) (ht : t.unshared = true) {fs fs' : List (Str × PFn)} (hp : fs.Perm fs')
    (hf : ∀ p ∈ fs, Steady p.2) (hn : (fs.map (·.1)).Nodup) : ∀ kvs n us m, loopMap env host K t fs kvs n = .ok us m →
    loopMap env host K t fs' kvs n = .ok us m := by
  induction hp with
  | nil => exact fun _ _ _ _ h => h
  | cons p hp ih =>
    obtain ⟨k, f⟩ := p
    simp only [List.map_cons, List.nodup_cons] at hn
    intro kvs n us m h
    obtain ⟨h1, v, m', h2, h3⟩ := child_iff.1 h
    exact child_iff.2 ⟨h1, v, m', h2, ih (fun p hp => hf p (by simp [hp])) hn.2 _ _ _ _ h3⟩
  | swap p q fs =>
    obtain ⟨k, f⟩ := p
    obtain ⟨k', f'⟩ := q
    have hne : k ≠ k' := by
      intro he; simp [he] at hn
    intro kvs n us m h
    have hs' : Steady f' := hf (k', f') (by simp)
    have hs : Steady f := hf (k, f) (by simp)
    obtain ⟨h1, v', h2, h3⟩ := (child_flat ht hs').1 h
    obtain ⟨-, v, h4, h5⟩ := (child_flat ht hs).1 h3
    rw [lookup_mapAssign_ne k k' _ hne] at h4
    refine (child_flat ht hs).2 ⟨h1, v, h4, (child_flat ht hs').2 ⟨h1, v', ?_, ?_⟩⟩
    · rw [lookup_mapAssign_ne k' k _ (Ne.symm hne)]; exact h2
    · rw [mapAssign_comm k' k _ _ (Ne.symm hne)]; exact h5
  | trans hp hq ih1 ih2 =>
    intro kvs n us m h
    exact ih2 (fun p h' => hf p (hp.mem_iff.2 h')) ((hp.map _).nodup_iff.1 hn) _ _ _ _ (ih1 hf hn _ _ _ _ h)

theorem obj_perm (env : Env) (hu : env.Unshared) (host : Host) (hb : TablesBuilt env host) (K : List HClass) (c : Nat) {fs fs' : List (Str × PFn)}
    (hp : fs.Perm fs') (hf : ∀ p ∈ fs, Steady p.2) (hn : (fs.map (·.1)).Nodup) : ∀ vs n us m, loopObj env host K c fs vs n = .ok us m →
    loopObj env host K c fs' vs n = .ok us m := by
  induction hp with
  | nil => exact fun _ _ _ _ h => h
  | cons p hp ih =>
    obtain ⟨k, f⟩ := p
    simp only [List.map_cons, List.nodup_cons] at hn
    intro vs n us m h
    obtain ⟨i, mb, e1, e2, h⟩ := obj_iff.1 h
    obtain ⟨h1, v, m', h2, h3⟩ := child_iff.1 h
    exact obj_iff.2 ⟨i, mb, e1, e2, child_iff.2 ⟨h1, v, m', h2, ih (fun p hp => hf p (by simp [hp])) hn.2 _ _ _ _ h3⟩⟩
  | swap p q fs =>
    obtain ⟨k, f⟩ := p
    obtain ⟨k', f'⟩ := q
    have hne : k ≠ k' := by
      intro he; simp [he] at hn
    intro vs n us m h
    have hs' : Steady f' := hf (k', f') (by simp)
    have hs : Steady f := hf (k, f) (by simp)
    obtain ⟨i', mb', e1', e2', h⟩ := obj_iff.1 h
    have ht' := hu c mb' (List.mem_of_getElem? e2')
    obtain ⟨h1, v', h2, h3⟩ := (child_flat ht' hs').1 h
    obtain ⟨i, mb, e1, e2, h3⟩ := obj_iff.1 h3
    have ht := hu c mb (List.mem_of_getElem? e2)
    obtain ⟨h1', v, h4, h5⟩ := (child_flat ht hs).1 h3
    have hi : i ≠ i' := by
      rintro rfl
      exact hne (select_inj env host hb c e1 e1' e2)
    rw [List.getElem?_set_ne (Ne.symm hi)] at h4
    refine obj_iff.2 ⟨i, mb, e1, e2, (child_flat ht hs).2 ⟨h1', v, h4, obj_iff.2 ⟨i', mb', e1', e2', (child_flat ht' hs').2 ⟨h1, v', ?_, ?_⟩⟩⟩⟩
    · rw [List.getElem?_set_ne hi]; exact h2
    · rw [List.set_comm _ _ hi]; exact h5
  | trans hp hq ih1 ih2 =>
    intro vs n us m h
    exact ih2 (fun p h' => hf p (hp.mem_iff.2 h')) ((hp.map _).nodup_iff.1 hn) _ _ _ _ (ih1 hf hn _ _ _ _ h)

mutual
/-- The second document is the first one with the members of objects, at any depth, in another order; keys of
an object are pairwise distinct. -/
inductive Reorder : Json → Json → Prop
  | same (j : Json) : Reorder j j
  | arr (js js' : List Json) : ReorderAll js js' → Reorder (.arr js) (.arr js')
  | obj (ms ms' ms'' : List (Str × Json)) : (ms.map (·.1)).Nodup → ms.Perm ms' → ReorderFields ms' ms'' → Reorder (.obj ms) (.obj ms'')

/-- `Reorder` element by element. -/
inductive ReorderAll : List Json → List Json → Prop
  | nil : ReorderAll [] []
  | cons (j j' : Json) (js js' : List Json) : Reorder j j' → ReorderAll js js' → ReorderAll (j :: js) (j' :: js')

/-- `Reorder` member by member. -/
inductive ReorderFields : List (Str × Json) → List (Str × Json) → Prop
  | nil : ReorderFields [] []
  | cons (k : Str) (j j' : Json) (ms ms' : List (Str × Json)) : Reorder j j' → ReorderFields ms ms' → ReorderFields ((k, j) :: ms) ((k, j') :: ms')
end

theorem Reorder.first {j j' : Json} (h : Reorder j j') : Core.first j' = Core.first j := by cases h <;> rfl

/-- Readers `f'` that accept whatever `f` accepts, with the same value. -/
def Extends (f f' : PFn) : Prop := ∀ K h n v m, h.unshared = true → f K h n = .ok v m → f' K h n = .ok v m

theorem extend_child {α : Type} {env : Env} {host : Host} {K : List HClass} {c : HClass} {t : Ty} (ht : t.unshared = true) {target : Val} {n : Nat}
    {outer : Val → Val} {f f' : PFn} (hf : Extends f f') {k k' : Val → Nat → LRes α} {a : α} {m : Nat} (hk : ∀ v n, k v n = .ok a m → k' v n = .ok a m)
    (h : withChild env host K c t target n outer f k = .ok a m) : withChild env host K c t target n outer f' k' = .ok a m := by
  obtain ⟨h1, v, m', h2, h3⟩ := child_iff.1 h
  exact child_iff.2 ⟨h1, v, m', hf K _ _ _ _ (openP_unshared env t target n ht).1 h2, hk _ _ h3⟩

theorem reorder_extends (env : Env) (hu : env.Unshared) (host : Host) (hb : TablesBuilt env host) : ∀ j j', Reorder j j' →
    Extends (pval env host j) (pval env host j') := by
  intro j
  induction j using Json.induct with
  | scalar j h1 h2 =>
    intro j' hr
    cases hr with
    | same => exact fun K h n v m _ h => h
    | arr js js' => exact absurd rfl (h1 _)
    | obj ms => exact absurd rfl (h2 _)
  | arr js ih =>
    intro j' hr
    cases hr with
    | same => exact fun K h n v m _ h => h
    | arr _ js' hall =>
    intro K h n v m hun hv
    simp only [pval] at hv ⊢
    rcases array_iff.1 hv with ⟨t, vs, us, rfl, h1, h2, rfl⟩ | ⟨t, vs, us, rfl, h1, h2, rfl⟩ | ⟨C, ts, vs, us, rfl, h1, h2, rfl⟩
    · refine array_iff.2 (.inl ⟨_, _, _, rfl, h1, ?_, rfl⟩)
      replace hun : t.unshared = true := hun
      clear hv h1
      induction js generalizing js' vs n with
      | nil => cases hall; exact h2
      | cons j js ih' =>
        cases hall with
        | cons _ j' _ js' hj hall =>
        have ih' := fun n => ih' (fun j hj => ih j (by simp [hj])) js' hall n
        rw [pitems] at h2 ⊢
        rw [hj.first]
        rcases vec_iff.1 h2 with ⟨p, pv, h1, h2, h3⟩ | ⟨h1, h2, h3⟩
        · exact vec_iff.2 (.inl ⟨p, pv, h1, h2, ih' _ _ h3⟩)
        · exact vec_iff.2 (.inr ⟨h1, h2, extend_child hun (ih j (by simp) j' hj) (fun v n => ih' n _) h3⟩)
    · refine array_iff.2 (.inr (.inl ⟨_, _, _, rfl, h1, ?_, rfl⟩))
      replace hun : t.unshared = true := hun
      clear hv h1
      generalize ([] : List Val) = st at h2 ⊢
      induction js generalizing js' st vs n with
      | nil => cases hall; exact h2
      | cons j js ih' =>
        cases hall with
        | cons _ j' _ js' hj hall =>
        have ih' := fun n => ih' (fun j hj => ih j (by simp [hj])) js' hall n
        rw [pitems] at h2 ⊢
        rw [hj.first]
        rcases set_iff.1 h2 with ⟨p, pv, h1, h2, h3⟩ | ⟨h1, h2, h3⟩
        · exact set_iff.2 (.inl ⟨p, pv, h1, h2, ih' _ _ _ h3⟩)
        · exact set_iff.2 (.inr ⟨h1, h2, extend_child hun (ih j (by simp) j' hj) (fun v n => ih' n _ _) h3⟩)
    · refine array_iff.2 (.inr (.inr ⟨_, _, _, _, rfl, h1, ?_, rfl⟩))
      replace hun : Ty.unshareds ts = true := hun
      clear hv h1
      generalize 0 = i at h2 ⊢
      induction js generalizing js' i vs n with
      | nil => cases hall; exact h2
      | cons j js ih' =>
        cases hall with
        | cons _ j' _ js' hj hall =>
        have ih' := fun n => ih' (fun j hj => ih j (by simp [hj])) js' hall n
        rw [pitems] at h2 ⊢
        obtain ⟨t, h1, h2, h3⟩ := fix_iff.1 h2
        exact fix_iff.2 ⟨t, h1, h2, extend_child ((Ty.unshareds_iff ts).1 hun t (List.mem_of_getElem? h1)) (ih j (by simp) j' hj)
          (fun v n => ih' n _ _) h3⟩
  | obj ms ih =>
    intro j' hr
    cases hr with
    | same => exact fun K h n v m _ h => h
    | obj _ ms' ms'' hn hp hall =>
    intro K h n v m hun hv
    simp only [pval] at hv ⊢
    have hf : ∀ p ∈ pfields env host ms, Steady p.2 := by
      rw [pfields_eq]
      intro p hp
      obtain ⟨q, hq, rfl⟩ := List.mem_map.1 hp
      exact steady env hu host q.2
    have hp' : (pfields env host ms).Perm (pfields env host ms') := by
      rw [pfields_eq, pfields_eq]; exact hp.map _
    have hn' : ((pfields env host ms).map (·.1)).Nodup := by
      rw [pfields_eq, List.map_map]; exact hn
    replace ih : ∀ p ∈ ms', ∀ j', Reorder p.2 j' → Extends (pval env host p.2) (pval env host j') := fun p h' => ih p (hp.mem_iff.2 h')
    rcases object_iff.1 hv with ⟨C, t, vs, us, rfl, h1, h2, rfl⟩ | ⟨c, vs, us, rfl, h1, h2, rfl⟩
    · refine object_iff.2 (.inl ⟨_, _, _, _, rfl, h1, ?_, rfl⟩)
      replace h2 := map_perm env host _ t hun hp' hf hn' _ _ _ _ h2
      replace hun : t.unshared = true := hun
      clear hv h1 hp' hp
      induction ms' generalizing ms'' vs n with
      | nil => cases hall; exact h2
      | cons p ms' ih' =>
        cases hall with
        | cons k j j' _ ms'' hj hall =>
        exact extend_child hun (ih (k, j) (by simp) j' hj) (fun v n => ih' _ hall n (fun p hp => ih p (by simp [hp])) _) h2
    · refine object_iff.2 (.inr ⟨_, _, _, rfl, h1, ?_, rfl⟩)
      replace h2 := obj_perm env hu host hb _ c hp' hf hn' _ _ _ _ h2
      clear hv h1 hp' hp hun
      induction ms' generalizing ms'' vs n with
      | nil => cases hall; exact h2
      | cons p ms' ih' =>
        cases hall with
        | cons k j j' _ ms'' hj hall =>
        obtain ⟨i, mb, e1, e2, h3⟩ := obj_iff.1 h2
        exact obj_iff.2 ⟨i, mb, e1, e2, extend_child (hu c mb (List.mem_of_getElem? e2)) (ih (k, j) (by simp) j' hj)
          (fun v n => ih' _ hall n (fun p hp => ih p (by simp [hp])) _) h3⟩

/-! ## Previous content -/

/-- Reading the document as the type overwrites the target completely: everything without containers, all
members of classes present. (What is below a pointer or in an optional member is new anyway.) -/
inductive Overwritten (env : Env) : Ty → Json → Prop
  | prim (p : Prim) (j : Json) : Overwritten env (.prim p) j
  | uptr (t : Ty) (j : Json) : Overwritten env (.uptr t) j
  | sptr (t : Ty) (j : Json) : Overwritten env (.sptr t) j
  | arr (k : Nat) (t : Ty) (js : List Json) : (∀ j ∈ js, Overwritten env t j) → Overwritten env (.arr k t) (.arr js)
  | tuple (ts : List Ty) (js : List Json) : (∀ (i : Nat) (t : Ty) (j : Json), ts[i]? = some t → js[i]? = some j → Overwritten env t j) →
      Overwritten env (.tuple ts) (.arr js)
  | cls (c : Nat) (ms : List (Str × Json)) : (∀ m ∈ env.members c, m.name ∈ ms.map (·.1)) →
      (∀ p ∈ ms, ∀ m ∈ env.members c, m.name = p.1 → m.kind ≠ .optional → Overwritten env m.ty p.2) → Overwritten env (.cls c) (.obj ms)

theorem openP_target (env : Env) (t : Ty) (target target' : Val) (n : Nat) : (openP env t target n).2 = (openP env t target' n).2 := by
  cases t <;> simp only [openP]
  split <;> rfl

theorem fit_length (env : Env) (ts : List Ty) : ∀ vs, (fit env ts vs).length = ts.length := by
  induction ts with
  | nil => intro vs; rfl
  | cons t ts ih => intro vs; simp [fit, ih]

theorem fitMembers_length (env : Env) (ms : List Member) : ∀ vs, (fitMembers env ms vs).length = ms.length := by
  induction ms with
  | nil => intro vs; rfl
  | cons t ts ih => intro vs; simp [fitMembers, ih]

/-- Whatever the target was. -/
def Overwrites (env : Env) (host : Host) (t : Ty) (j : Json) : Prop := ∀ target target' K n u m,
  pval env host j K (openP env t target n).1 (openP env t target n).2.2 = .ok u m →
    pval env host j K (openP env t target' n).1 (openP env t target' n).2.2 = .ok u m

theorem overwrite_child {α : Type} {env : Env} {host : Host} {K : List HClass} {c : HClass} {t : Ty} {target target' : Val} {n : Nat}
    {outer : Val → Val} {j : Json} (hj : Overwrites env host t j) {k k' : Val → Nat → LRes α} {a : α} {m : Nat}
    (hk : ∀ v n, k v n = .ok a m → k' v n = .ok a m)
    (h : withChild env host K c t target n outer (pval env host j) k = .ok a m) :
    withChild env host K c t target' n outer (pval env host j) k' = .ok a m := by
  obtain ⟨h1, v, m', h2, h3⟩ := child_iff.1 h
  refine child_iff.2 ⟨h1, v, m', hj target target' K n v m' h2, ?_⟩
  rw [openP_target env t target' target n]
  exact hk _ _ h3

theorem overwrite_fix (env : Env) (host : Host) (K : List HClass) (C : Ty) (ts : List Ty) (js : List Json) (i : Nat) (vs vs' : List Val) (n : Nat)
    (us : List Val) (m : Nat) (hl : vs.length = ts.length) (hl' : vs'.length = ts.length) (hsame : ∀ x, x < i → vs[x]? = vs'[x]?)
    (hj : ∀ (x : Nat) (t : Ty) (j : Json), ts[i + x]? = some t → js[x]? = some j → Overwrites env host t j)
    (h : loopFix env host K C ts (pitems env host js) i vs n = .ok us m) : loopFix env host K C ts (pitems env host js) i vs' n = .ok us m := by
  induction js generalizing i vs vs' n with
  | nil =>
    simp only [pitems, loopFix] at h ⊢
    split at h
    · rename_i hi
      rw [if_pos hi]
      have : vs = vs' := by
        apply List.ext_getElem?
        intro x
        by_cases hx : x < i
        · exact hsame x hx
        · rw [List.getElem?_eq_none_iff] at hi
          rw [List.getElem?_eq_none (by omega), List.getElem?_eq_none (by omega)]
      rw [← this, h]
    · cases h
  | cons j js ih =>
    rw [pitems] at h ⊢
    obtain ⟨t, h1, h2, h3⟩ := fix_iff.1 h
    refine fix_iff.2 ⟨t, h1, h2, ?_⟩
    refine overwrite_child (hj 0 t j h1 rfl) (fun v n hv => ?_) h3
    refine ih (i + 1) _ _ _ (by simpa using hl) (by simpa using hl') (fun x hx => ?_) (fun x t' j' h1' h2' => ?_) hv
    · have hlt := (List.getElem?_eq_some_iff.1 h1).1
      rw [List.getElem?_set, List.getElem?_set, hl, hl']
      split
      · rfl
      · exact hsame x (by omega)
    · exact hj (x + 1) t' j' (by rw [← h1']; congr 1; omega) (by simpa using h2')

theorem overwrite_obj (env : Env) (hd : env.DistinctNames) (host : Host) (hb : TablesBuilt env host) (K : List HClass) (c : Nat) (ms : List (Str × Json))
    (vs vs' : List Val) (n : Nat) (us : List Val) (n' : Nat) (hl : vs.length = vs'.length) (hc : (env.members c).length = vs.length)
    (hsame : ∀ (x : Nat) (m : Member), (env.members c)[x]? = some m → vs[x]? = vs'[x]? ∨ m.name ∈ ms.map (·.1))
    (hj : ∀ p ∈ ms, ∀ m ∈ env.members c, m.name = p.1 → m.kind ≠ .optional → Overwrites env host m.ty p.2)
    (h : loopObj env host K c (pfields env host ms) vs n = .ok us n') : loopObj env host K c (pfields env host ms) vs' n = .ok us n' := by
  induction ms generalizing vs vs' n with
  | nil =>
    simp only [pfields, loopObj] at h ⊢
    have : vs = vs' := by
      apply List.ext_getElem?
      intro x
      cases hx : (env.members c)[x]? with
      | none =>
        rw [List.getElem?_eq_none_iff] at hx
        rw [List.getElem?_eq_none (by omega), List.getElem?_eq_none (by omega)]
      | some m => simpa using hsame x m hx
    rw [← this, h]
  | cons p ms ih =>
    obtain ⟨k, j⟩ := p
    rw [pfields] at h ⊢
    obtain ⟨i, m, h1, h2, h3⟩ := obj_iff.1 h
    refine obj_iff.2 ⟨i, m, h1, h2, ?_⟩
    have hname := select_name env host hb c h1 h2
    have hnext : ∀ v n, loopObj env host K c (pfields env host ms) (vs.set i v) n = .ok us n' →
        loopObj env host K c (pfields env host ms) (vs'.set i v) n = .ok us n' := by
      intro v n hv
      refine ih _ _ _ (by simpa using hl) (by simpa using hc) (fun x mx hx => ?_) (fun p hp => hj p (by simp [hp])) hv
      rw [List.getElem?_set, List.getElem?_set, hl]
      split
      · exact .inl rfl
      · rename_i hne
        rcases hsame x mx hx with h' | h'
        · exact .inl h'
        · rw [List.map_cons, List.mem_cons] at h'
          rcases h' with h' | h'
          · exfalso
            apply hne
            have hnd := hd c
            obtain ⟨hi, hi'⟩ := List.getElem?_eq_some_iff.1 h2
            obtain ⟨hx', hx''⟩ := List.getElem?_eq_some_iff.1 hx
            have h1 : ((env.members c).map (·.name))[i]'(by simpa using hi) = ((env.members c).map (·.name))[x]'(by simpa using hx') := by
              simp only [List.getElem_map, hi', hx'', hname, h']
            exact (List.Nodup.getElem_inj_iff hnd).1 h1
          · exact .inr h'
    by_cases ho : m.kind = .optional
    · obtain ⟨e1, v, m', e2, e3⟩ := child_iff.1 h3
      simp only [Member.target, if_pos ho] at e2 e3 ⊢
      exact child_iff.2 ⟨e1, v, m', e2, hnext _ _ e3⟩
    · exact overwrite_child (hj (k, j) (by simp) m (List.mem_of_getElem? h2) hname ho) hnext h3

theorem overwrites (env : Env) (hd : env.DistinctNames) (host : Host) (hb : TablesBuilt env host) : ∀ j t, Overwritten env t j → Overwrites env host t j := by
  intro j
  induction j using Json.induct with
  | scalar j h1 h2 =>
    intro t hs target target' K n u m h
    rw [pval_scalar env host j h1 h2] at h ⊢
    cases hs with
    | prim p => exact h
    | uptr t => exact h
    | sptr t => exact h
    | arr k t js => exact absurd rfl (h1 _)
    | tuple ts js => exact absurd rfl (h1 _)
    | cls c ms => exact absurd rfl (h2 _)
  | arr js ih =>
    intro t hs target target' K n u m h
    cases hs with
    | prim p => exact h
    | uptr t => exact h
    | sptr t => exact h
    | arr k t _ hall =>
      simp only [pval, openP] at h ⊢
      rcases array_iff.1 h with ⟨_, _, _, he, -⟩ | ⟨_, _, _, he, -⟩ | ⟨C, ts, vs, us, he, h1, h2, rfl⟩
      · cases he
      · cases he
      · cases he
        refine array_iff.2 (.inr (.inr ⟨_, _, _, us, rfl, h1, ?_, rfl⟩))
        refine overwrite_fix env host K _ _ js 0 _ _ n us m (fit_length ..) (fit_length ..) (fun x hx => absurd hx (Nat.not_lt_zero _)) (fun x t' j' ht hj => ?_) h2
        rw [(List.mem_replicate.1 (List.mem_of_getElem? ht)).2]
        exact ih j' (List.mem_of_getElem? hj) t (hall j' (List.mem_of_getElem? hj))
    | tuple ts _ hall =>
      simp only [pval, openP] at h ⊢
      rcases array_iff.1 h with ⟨_, _, _, he, -⟩ | ⟨_, _, _, he, -⟩ | ⟨C, ts, vs, us, he, h1, h2, rfl⟩
      · cases he
      · cases he
      · cases he
        refine array_iff.2 (.inr (.inr ⟨_, _, _, us, rfl, h1, ?_, rfl⟩))
        refine overwrite_fix env host K _ _ js 0 _ _ n us m (fit_length ..) (fit_length ..) (fun x hx => absurd hx (Nat.not_lt_zero _)) (fun x t' j' ht hj => ?_) h2
        rw [Nat.zero_add] at ht
        exact ih j' (List.mem_of_getElem? hj) t' (hall x t' j' ht hj)
  | obj ms ih =>
    intro t hs target target' K n u m h
    cases hs with
    | prim p => exact h
    | uptr t => exact h
    | sptr t => exact h
    | cls c _ hkeys hall =>
      by_cases hc : env.members c = []
      · simp only [pval, openP, if_pos hc] at h ⊢
        exact h
      · simp only [pval, openP, if_neg hc] at h ⊢
        rcases object_iff.1 h with ⟨_, _, _, _, he, -⟩ | ⟨c', vs, us, he, h1, h2, rfl⟩
        · cases he
        · cases he
          refine object_iff.2 (.inr ⟨_, _, us, rfl, h1, ?_, rfl⟩)
          refine overwrite_obj env hd host hb _ c ms _ _ n us m (by rw [fitMembers_length, fitMembers_length]) (by rw [fitMembers_length])
            (fun x mx hx => .inr (hkeys mx (List.mem_of_getElem? hx))) (fun p hp m hm hn ho => ih p hp m.ty (hall p hp m hm hn ho)) h2

/-! ## Elements of vectors and sets -/

/-- Vectors are added to. -/
theorem loopVec_append (env : Env) (host : Host) (K : List HClass) (t : Ty) (fs : List (Event × PFn)) (vs ws us : List Val) (n m : Nat)
    (h : loopVec env host K t fs ws n = .ok us m) : loopVec env host K t fs (vs ++ ws) n = .ok (vs ++ us) m := by
  induction fs generalizing ws n with
  | nil => cases h; rfl
  | cons p fs ih =>
    obtain ⟨e, f⟩ := p
    rcases vec_iff.1 h with ⟨p, pv, h1, h2, h3⟩ | ⟨h1, h2, h3⟩
    · refine vec_iff.2 (.inl ⟨p, pv, h1, h2, ?_⟩)
      have := ih _ _ h3
      rwa [← List.append_assoc] at this
    · obtain ⟨e1, v, m', e2, e3⟩ := child_iff.1 h3
      refine vec_iff.2 (.inr ⟨h1, h2, child_iff.2 ⟨e1, v, m', e2, ?_⟩⟩)
      have := ih _ _ e3
      rwa [← List.append_assoc] at this

/-- The value read for an element, on the stack `K`. -/
def ReadsAs (env : Env) (host : Host) (K : List HClass) (t : Ty) (j : Json) (v : Val) : Prop :=
  (∃ p pv, direct t = some p ∧ leafParse env p (first j) = .ok pv ∧ v = .prim pv) ∨
    (direct t = none ∧ ∃ n u m, room host K (.parser t) = true ∧ pval env host j K (openP env t (env.ctor t) n).1 (openP env t (env.ctor t) n).2.2 = .ok u m ∧
      v = (openP env t (env.ctor t) n).2.1 u)

theorem loopSet_values (env : Env) (host : Host) (K : List HClass) (t : Ty) (js : List Json) (st vs us : List Val) (n m : Nat)
    (h : loopSet env host K t (pitems env host js) st vs n = .ok us m) (hst : (direct t).isSome → st = []) :
    ∃ ws, ws.length = js.length ∧ us = (st ++ ws).foldl (fun s v => setInsert env.less v s) vs ∧
      ∀ (i : Nat) (j : Json) (w : Val), js[i]? = some j → ws[i]? = some w → ReadsAs env host K t j w := by
  induction js generalizing st vs n with
  | nil =>
    simp only [pitems, loopSet, LRes.ok.injEq] at h
    exact ⟨[], rfl, by simp [h.1], by simp⟩
  | cons j js ih =>
    rw [pitems] at h
    rcases set_iff.1 h with ⟨p, pv, h1, h2, h3⟩ | ⟨h1, h2, h3⟩
    · have hst := hst (by simp [h1])
      subst hst
      obtain ⟨ws, hl, he, hall⟩ := ih _ _ _ h3 (fun _ => rfl)
      refine ⟨.prim pv :: ws, by simp [hl], by simpa using he, fun i j' w hj hw => ?_⟩
      cases i with
      | zero =>
        simp only [List.getElem?_cons_zero, Option.some.injEq] at hj hw
        subst hj hw
        exact .inl ⟨p, pv, h1, h2, rfl⟩
      | succ i => exact hall i j' w (by simpa using hj) (by simpa using hw)
    · obtain ⟨e1, v, m', e2, e3⟩ := child_iff.1 h3
      obtain ⟨ws, hl, he, hall⟩ := ih _ _ _ e3 (fun h => by simp [h1] at h)
      refine ⟨_ :: ws, by simp [hl], by simpa using he, fun i j' w hj hw => ?_⟩
      cases i with
      | zero =>
        simp only [List.getElem?_cons_zero, Option.some.injEq] at hj hw
        subst hj hw
        exact .inr ⟨h1, n, v, m', e1, e2, rfl⟩
      | succ i => exact hall i j' w (by simpa using hj) (by simpa using hw)

/-- A set of elements without shared pointers is read when its elements are. -/
theorem loopSet_exact (env : Env) (host : Host) (K : List HClass) (t : Ty) (js : List Json) (ws : List Val) (hl : ws.length = js.length)
    (hall : ∀ (i : Nat) (j : Json) (w : Val), js[i]? = some j → ws[i]? = some w → (∃ p pv, direct t = some p ∧ leafParse env p (first j) = .ok pv ∧ w = .prim pv) ∨
      (direct t = none ∧ isToken t (first j) = true ∧ room host K (.parser t) = true ∧ Yields env K (pval env host j) t (env.ctor t) w))
    (st vs : List Val) (n : Nat) (hst : (direct t).isSome → st = []) :
    loopSet env host K t (pitems env host js) st vs n = .ok ((st ++ ws).foldl (fun s v => setInsert env.less v s) vs) n := by
  induction js generalizing st vs ws with
  | nil =>
    have : ws = [] := by simpa using hl
    subst this
    simp [pitems, loopSet]
  | cons j js ih =>
    cases ws with
    | nil => simp at hl
    | cons w ws =>
      have ih' := ih ws (by simpa using hl) (fun i j w hj hw => hall (i + 1) j w (by simpa using hj) (by simpa using hw))
      rw [pitems]
      rcases hall 0 j w rfl rfl with ⟨p, pv, h1, h2, rfl⟩ | ⟨h1, h2, h3, h4⟩
      · have hst := hst (by simp [h1])
        subst hst
        refine set_iff.2 (.inl ⟨p, pv, h1, h2, ?_⟩)
        rw [ih' [] _ (fun _ => rfl)]
        simp
      · obtain ⟨u, h5, h6⟩ := h4 n
        refine set_iff.2 (.inr ⟨h1, h2, child_iff.2 ⟨h3, u, n, h5, ?_⟩⟩)
        rw [ih' _ _ (fun h => by simp [h1] at h), h6]
        simp

/-! ## Orders of members -/

theorem reorder_shift {a b c : List (Str × Json)} (hp : b.Perm c) (h : ReorderFields a b) : ∃ d, a.Perm d ∧ ReorderFields d c := by
  induction hp generalizing a with
  | nil => cases h; exact ⟨[], .nil, .nil⟩
  | cons p hp ih =>
    cases h with
    | cons k j j' ms ms' h1 h2 =>
      obtain ⟨d, h3, h4⟩ := ih h2
      exact ⟨(k, j) :: d, h3.cons _, .cons k j _ d _ h1 h4⟩
  | swap p q l =>
    cases h with
    | cons k j j' ms ms' h1 h2 =>
      cases h2 with
      | cons k' j1 j1' ms1 ms1' h3 h4 => exact ⟨(k', j1) :: (k, j) :: ms1, .swap .., .cons _ _ _ _ _ h3 (.cons _ _ _ _ _ h1 h4)⟩
  | trans _ _ ih1 ih2 =>
    obtain ⟨d, h1, h2⟩ := ih1 h
    obtain ⟨e, h3, h4⟩ := ih2 h2
    exact ⟨e, h1.trans h3, h4⟩

theorem ReorderFields.keys {a b : List (Str × Json)} (h : ReorderFields a b) : b.map (·.1) = a.map (·.1) := by
  induction b generalizing a with
  | nil => cases h; rfl
  | cons p b ih =>
    cases h with
    | cons k j j' ms ms' h1 h2 => simp [ih h2]

theorem ReorderFields.symm {a b : List (Str × Json)} (h : ReorderFields a b) (hs : ∀ p ∈ a, ∀ j', Reorder p.2 j' → Reorder j' p.2) : ReorderFields b a := by
  induction b generalizing a with
  | nil => cases h; exact .nil
  | cons p b ih =>
    cases h with
    | cons k j j' ms ms' h1 h2 => exact .cons k j' j _ _ (hs (k, j) (by simp) j' h1) (ih h2 fun p hp => hs p (by simp [hp]))

theorem ReorderAll.symm {a b : List Json} (h : ReorderAll a b) (hs : ∀ j ∈ a, ∀ j', Reorder j j' → Reorder j' j) : ReorderAll b a := by
  induction b generalizing a with
  | nil => cases h; exact .nil
  | cons p b ih =>
    cases h with
    | cons j j' ms ms' h1 h2 => exact .cons _ _ _ _ (hs j (by simp) _ h1) (ih h2 fun p hp => hs p (by simp [hp]))

theorem Reorder.symm {j j' : Json} (h : Reorder j j') : Reorder j' j := by
  induction j using Json.induct generalizing j' with
  | scalar j h1 h2 =>
    cases h with
    | same => exact .same _
    | arr js => exact absurd rfl (h1 _)
    | obj ms => exact absurd rfl (h2 _)
  | arr js ih =>
    cases h with
    | same => exact .same _
    | arr _ js' h => exact .arr _ _ (h.symm fun j hj j' h' => ih j hj h')
  | obj ms ih =>
    cases h with
    | same => exact .same _
    | obj _ ms' ms'' hn hp h =>
      have h1 := h.symm fun p hp' j' h' => ih p (hp.mem_iff.2 hp') h'
      obtain ⟨d, h2, h3⟩ := reorder_shift hp.symm h1
      refine .obj _ d _ ?_ h2 h3
      rw [h.keys]
      exact (hp.map _).nodup_iff.1 hn

end Verif.Core
