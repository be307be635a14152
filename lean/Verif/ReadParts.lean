import Verif.ReadMore
import Verif.Agree

/-!
# Reading part by part

The outcome of reading a container, tuple or class in the throwing variant, from the outcomes for its parts alone.
-/

namespace Verif.Core
open Verif.Numeric Verif.EnumConv

/-- The same outcome below more segments. -/
def PRes.shift {α : Type} (segs : List Seg) : PRes α → PRes α
  | .ub => .ub
  | .threw s e => .threw (s ++ segs) e
  | .done ok a => .done ok a

theorem PRes.shift_done {α : Type} (segs : List Seg) (ok : Bool) (a : α) : (PRes.done ok a).shift segs = .done ok a := rfl

theorem PRes.shift_map {α β : Type} (f : α → β) (segs : List Seg) (r : PRes α) : (r.map f).shift segs = (r.shift segs).map f := by cases r <;> rfl

theorem PRes.shift_reject {α : Type} (exc : Bool) (s segs : List Seg) (e : Err) (a : α) :
    PRes.reject exc (s ++ segs) e a = (PRes.reject exc s e a).shift segs := by cases exc <;> rfl

/-- Reading depends on the segments only in the path that is thrown. -/
def Shifts (env : Env) (j : Json) (t : Ty) : Prop :=
  ∀ exc tg s segs, pd env j exc t tg (s ++ segs) = (pd env j exc t tg s).shift segs

theorem pSame_shift {env : Env} {t : Ty} {exc : Bool} {js : List Json} (h : ∀ j ∈ js, Shifts env j t) (k : Nat) (s segs : List Seg) :
    pSame env t exc js k (s ++ segs) = (pSame env t exc js k s).shift segs := by
  induction js generalizing k with
  | nil => rfl
  | cons j js ih =>
    simp only [pSame]
    rw [show Seg.index k :: (s ++ segs) = (Seg.index k :: s) ++ segs from rfl, h j (by simp)]
    cases pd env j exc t (env.fresh t) (Seg.index k :: s) with
    | ub => rfl
    | threw s e => rfl
    | done ok v =>
      cases ok with
      | false => rfl
      | true => simp only [PRes.shift_done]; rw [ih (fun j hj => h j (by simp [hj])), PRes.shift_map]

theorem pTuple_shift {env : Env} {exc : Bool} {js : List Json} {ts : List Ty} (h : ∀ j ∈ js, ∀ t ∈ ts, Shifts env j t) (tg : List Val) (k : Nat) (s segs : List Seg) :
    pTuple env exc js ts tg k (s ++ segs) = (pTuple env exc js ts tg k s).shift segs := by
  induction js generalizing k ts tg with
  | nil => rfl
  | cons j js ih =>
    cases ts with
    | nil => rfl
    | cons t ts =>
      simp only [pTuple]
      rw [show Seg.index k :: (s ++ segs) = (Seg.index k :: s) ++ segs from rfl, h j (by simp) t (by simp)]
      cases pd env j exc t (tg.headD (env.fresh t)) (Seg.index k :: s) with
      | ub => rfl
      | threw s e => rfl
      | done ok v =>
        cases ok with
        | false => rfl
        | true => simp only [PRes.shift_done]; rw [ih (fun j hj t ht => h j (by simp [hj]) t (by simp [ht])), PRes.shift_map]

theorem pEntries_shift {env : Env} {t : Ty} {exc : Bool} {ms : List (Str × Json)} (h : ∀ p ∈ ms, Shifts env p.2 t) (s segs : List Seg) :
    pEntries env t exc ms (s ++ segs) = (pEntries env t exc ms s).shift segs := by
  induction ms with
  | nil => rfl
  | cons p ms ih =>
    obtain ⟨k, j⟩ := p
    simp only [pEntries]
    rw [show Seg.name (cstr k) :: (s ++ segs) = (Seg.name (cstr k) :: s) ++ segs from rfl, h (k, j) (by simp)]
    cases pd env j exc t (env.fresh t) (Seg.name (cstr k) :: s) with
    | ub => rfl
    | threw s e => rfl
    | done ok v =>
      cases ok with
      | false => rfl
      | true => simp only [PRes.shift_done]; rw [ih (fun j hj => h j (by simp [hj])), PRes.shift_map]

theorem pMembers_shift {env : Env} {exc : Bool} {fs : List (Str × Json)} {l : List Member} (h : ∀ p ∈ fs, ∀ m ∈ l, Shifts env p.2 m.ty) (tg : List Val) (res : Bool)
    (s segs : List Seg) : pMembers env exc fs (s ++ segs) l tg res = (pMembers env exc fs s l tg res).shift segs := by
  induction l generalizing tg res with
  | nil => rfl
  | cons m l ih =>
    have ih' := fun tg res => ih (fun p hp m hm => h p hp m (by simp [hm])) tg res
    simp only [pMembers]
    cases hf : findMember m.name fs with
    | none =>
      simp only
      cases m.kind with
      | optional => simp only; rw [ih', PRes.shift_map]
      | default => simp only; rw [ih', PRes.shift_map]
      | required =>
        simp only
        cases exc with
        | true => rfl
        | false => simp only [Bool.false_eq_true, if_false]; rw [ih', PRes.shift_map]
    | some r =>
      obtain ⟨i, j⟩ := r
      simp only
      rw [show Seg.name (cstr m.name) :: (s ++ segs) = (Seg.name (cstr m.name) :: s) ++ segs from rfl, h _ (findMember_mem hf) m (by simp)]
      cases pd env j exc m.ty (if m.kind = .optional then env.fresh m.ty else tg.headD (env.fresh m.ty)) (Seg.name (cstr m.name) :: s) with
      | ub => rfl
      | threw s e => rfl
      | done ok v => simp only [PRes.shift_done]; rw [ih', PRes.shift_map]

theorem pAll_shift {env : Env} {j : Json} {ts : List Ty} (h : ∀ t ∈ ts, Shifts env j t) (i : Nat) (s segs : List Seg) :
    pAll env j ts i (s ++ segs) = (pAll env j ts i s).shift segs := by
  induction ts generalizing i with
  | nil => rfl
  | cons t ts ih =>
    simp only [pAll]
    rw [h t (by simp)]
    cases pd env j false t (env.fresh t) s with
    | ub => rfl
    | threw s e => rfl
    | done ok v =>
      cases ok with
      | true => rfl
      | false => simp only [PRes.shift_done]; exact ih (fun t ht => h t (by simp [ht])) (i + 1)

theorem shifts_not_arr {env : Env} {j : Json} {t : Ty} (hj : ∀ js, j ≠ .arr js)
    (ht : (∃ t', t = .vec t') ∨ (∃ n t', t = .arr n t') ∨ (∃ t', t = .set t') ∨ (∃ t', t = .dict t') ∨ ∃ ts, t = .tuple ts) : Shifts env j t := by
  intro exc tg s segs
  rw [pd_not_arr _ _ _ _ _ _ hj ht, pd_not_arr _ _ _ _ _ _ hj ht]
  exact PRes.shift_reject ..

theorem shifts_not_obj {env : Env} {j : Json} {t : Ty} (hj : ∀ ms, j ≠ .obj ms) (ht : (∃ o t', t = .map o t') ∨ ∃ c, t = .cls c) : Shifts env j t := by
  intro exc tg s segs
  rw [pd_not_obj _ _ _ _ _ _ hj ht, pd_not_obj _ _ _ _ _ _ hj ht]
  exact PRes.shift_reject ..

theorem shifts (env : Env) (hu : env.Unshared) : ∀ j t, t.unshared = true → Shifts env j t := by
  apply lexInd
  intro j t ihj iht ht exc tg s segs
  cases t with
  | prim p =>
    rw [pd_prim, pd_prim]
    cases desPrim env p j with
    | ub => rfl
    | reject e => exact PRes.shift_reject ..
    | ok pv => rfl
  | vec t =>
    cases j with
    | arr js => rw [pd_vec env hu _ _ _ js t ht, pd_vec env hu _ _ _ js t ht, pSame_shift (fun j hj => ihj j (size_item hj) t ht), PRes.shift_map]
    | _ => exact shifts_not_arr (fun _ h => by cases h) (.inl ⟨_, rfl⟩) exc tg s segs
  | arr n t =>
    cases j with
    | arr js =>
      rw [pd_arr env hu _ _ _ js n t ht, pd_arr env hu _ _ _ js n t ht, pSame_shift (fun j hj => ihj j (size_item hj) t ht)]
      split
      · cases pSame env t exc js 0 s with
        | ub => rfl
        | threw s e => rfl
        | done ok vs => cases ok <;> rfl
      · exact PRes.shift_reject ..
    | _ => exact shifts_not_arr (fun _ h => by cases h) (.inr (.inl ⟨_, _, rfl⟩)) exc tg s segs
  | set t =>
    cases j with
    | arr js => rw [pd_set env hu _ _ _ js t ht, pd_set env hu _ _ _ js t ht, pSame_shift (fun j hj => ihj j (size_item hj) t ht), PRes.shift_map]
    | _ => exact shifts_not_arr (fun _ h => by cases h) (.inr (.inr (.inl ⟨_, rfl⟩))) exc tg s segs
  | map o t =>
    cases j with
    | obj ms => rw [pd_map env hu _ _ _ ms o t ht, pd_map env hu _ _ _ ms o t ht, pEntries_shift (fun p hp => ihj p.2 (size_field hp) t ht), PRes.shift_map]
    | _ => exact shifts_not_obj (fun _ h => by cases h) (.inl ⟨_, _, rfl⟩) exc tg s segs
  | dict t =>
    cases j with
    | arr js =>
      rw [pd_dict env hu _ _ _ js t ht, pd_dict env hu _ _ _ js t ht,
        pSame_shift (fun j hj => ihj j (size_item hj) _ (by simpa [Ty.unshared, Ty.unshareds] using ht)), PRes.shift_map]
    | _ => exact shifts_not_arr (fun _ h => by cases h) (.inr (.inr (.inr (.inl ⟨_, rfl⟩)))) exc tg s segs
  | tuple ts =>
    cases j with
    | arr js =>
      rw [pd_tuple env hu _ _ _ js ts ht, pd_tuple env hu _ _ _ js ts ht,
        pTuple_shift (fun j hj t ht' => ihj j (size_item hj) t ((Ty.unshareds_iff ts).1 ht t ht'))]
      split
      · rw [PRes.shift_map]
      · exact PRes.shift_reject ..
    | _ => exact shifts_not_arr (fun _ h => by cases h) (.inr (.inr (.inr (.inr ⟨_, rfl⟩)))) exc tg s segs
  | variant ts =>
    rw [pd_variant env hu _ _ _ j ts ht, pd_variant env hu _ _ _ j ts ht, pAll_shift (fun t ht' => iht t (size_alt ht') ((Ty.unshareds_iff ts).1 ht t ht'))]
    cases pAll env j ts 0 s with
    | ub => rfl
    | threw s e => rfl
    | done ok v =>
      cases ok with
      | true => rfl
      | false => exact PRes.shift_reject ..
  | cls c =>
    cases j with
    | obj ms => rw [pd_cls env hu, pd_cls env hu, pMembers_shift (fun p hp m hm => ihj p.2 (size_field hp) m.ty (hu c m hm)), PRes.shift_map]
    | _ => exact shifts_not_obj (fun _ h => by cases h) (.inr ⟨_, rfl⟩) exc tg s segs
  | uptr t =>
    rw [pd_uptr env hu _ _ _ j t ht, pd_uptr env hu _ _ _ j t ht, iht t (by simp) ht]
    cases pd env j exc t (env.ctor t) s with
    | ub => rfl
    | threw s e => rfl
    | done ok v => cases ok <;> rfl
  | sptr t => cases ht

/-! ## The truth value in the throwing variant -/

/-- If the reader returns, it returns true. -/
def PRes.Sure {α : Type} (r : PRes α) : Prop := ∀ a, r ≠ .done false a

theorem PRes.Sure.map {α β : Type} {f : α → β} {r : PRes α} (h : r.Sure) : (r.map f).Sure := by
  intro b hb
  cases r with
  | ub => cases hb
  | threw s e => cases hb
  | done ok a =>
    simp only [PRes.map, PRes.done.injEq] at hb
    exact h a (by rw [hb.1])

theorem sure_threw {α : Type} (segs : List Seg) (e : Err) (a : α) : (PRes.reject true segs e a).Sure := fun _ h => by cases h

theorem pSame_sure {env : Env} {t : Ty} {js : List Json} (h : ∀ j ∈ js, ∀ tg segs, (pd env j true t tg segs).Sure) (k : Nat) (segs : List Seg) :
    (pSame env t true js k segs).Sure := by
  induction js generalizing k with
  | nil => intro a ha; cases ha
  | cons j js ih =>
    simp only [pSame]
    have h1 := h j (by simp) (env.fresh t) (.index k :: segs)
    cases hp : pd env j true t (env.fresh t) (.index k :: segs) with
    | ub => intro a ha; cases ha
    | threw s e => intro a ha; cases ha
    | done ok v =>
      cases ok with
      | false => exact absurd hp (h1 v)
      | true => exact (ih (fun j hj => h j (by simp [hj])) (k + 1)).map

theorem pTuple_sure {env : Env} {js : List Json} {ts : List Ty} (h : ∀ j ∈ js, ∀ t ∈ ts, ∀ tg segs, (pd env j true t tg segs).Sure) (tg : List Val) (k : Nat)
    (segs : List Seg) : (pTuple env true js ts tg k segs).Sure := by
  induction js generalizing k ts tg with
  | nil => intro a ha; cases ha
  | cons j js ih =>
    cases ts with
    | nil => intro a ha; cases ha
    | cons t ts =>
      simp only [pTuple]
      have h1 := h j (by simp) t (by simp) (tg.headD (env.fresh t)) (.index k :: segs)
      cases hp : pd env j true t (tg.headD (env.fresh t)) (.index k :: segs) with
      | ub => intro a ha; cases ha
      | threw s e => intro a ha; cases ha
      | done ok v =>
        cases ok with
        | false => exact absurd hp (h1 v)
        | true => exact (ih (fun j hj t ht => h j (by simp [hj]) t (by simp [ht])) tg.tail (k + 1)).map

theorem pEntries_sure {env : Env} {t : Ty} {ms : List (Str × Json)} (h : ∀ p ∈ ms, ∀ tg segs, (pd env p.2 true t tg segs).Sure) (segs : List Seg) :
    (pEntries env t true ms segs).Sure := by
  induction ms with
  | nil => intro a ha; cases ha
  | cons p ms ih =>
    obtain ⟨k, j⟩ := p
    simp only [pEntries]
    have h1 := h (k, j) (by simp) (env.fresh t) (Seg.name (cstr k) :: segs)
    cases hp : pd env j true t (env.fresh t) (Seg.name (cstr k) :: segs) with
    | ub => intro a ha; cases ha
    | threw s e => intro a ha; cases ha
    | done ok v =>
      cases ok with
      | false => exact absurd hp (h1 v)
      | true => exact (ih (fun j hj => h j (by simp [hj]))).map

theorem pMembers_sure {env : Env} {fs : List (Str × Json)} {l : List Member} (h : ∀ p ∈ fs, ∀ m ∈ l, ∀ tg segs, (pd env p.2 true m.ty tg segs).Sure) (tg : List Val)
    (segs : List Seg) : (pMembers env true fs segs l tg true).Sure := by
  induction l generalizing tg with
  | nil => intro a ha; cases ha
  | cons m l ih =>
    have ih' := fun tg => ih (fun p hp m hm => h p hp m (by simp [hm])) tg
    simp only [pMembers]
    cases hf : findMember m.name fs with
    | none =>
      simp only
      cases m.kind with
      | optional => exact (ih' _).map
      | default => exact (ih' _).map
      | required => intro a ha; cases ha
    | some r =>
      obtain ⟨i, j⟩ := r
      simp only
      have h1 := h _ (findMember_mem hf) m (by simp) (if m.kind = .optional then env.fresh m.ty else tg.headD (env.fresh m.ty)) (Seg.name (cstr m.name) :: segs)
      simp only at h1
      cases hp : pd env j true m.ty (if m.kind = .optional then env.fresh m.ty else tg.headD (env.fresh m.ty)) (Seg.name (cstr m.name) :: segs) with
      | ub => intro a ha; cases ha
      | threw s e => intro a ha; cases ha
      | done ok v =>
        cases ok with
        | false => exact absurd hp (h1 v)
        | true => exact (ih' _).map

theorem sure (env : Env) (hu : env.Unshared) : ∀ j t, t.unshared = true → ∀ tg segs, (pd env j true t tg segs).Sure := by
  apply lexInd
  intro j t ihj iht ht tg segs
  have hna : (∀ js, j ≠ .arr js) → ((∃ t', t = .vec t') ∨ (∃ n t', t = .arr n t') ∨ (∃ t', t = .set t') ∨ (∃ t', t = .dict t') ∨ ∃ ts, t = .tuple ts) →
      (pd env j true t tg segs).Sure := fun h1 h2 => by rw [pd_not_arr _ _ _ _ _ _ h1 h2]; exact sure_threw _ _ _
  have hno : (∀ ms, j ≠ .obj ms) → ((∃ o t', t = .map o t') ∨ ∃ c, t = .cls c) → (pd env j true t tg segs).Sure := fun h1 h2 => by
    rw [pd_not_obj _ _ _ _ _ _ h1 h2]; exact sure_threw _ _ _
  cases t with
  | prim p =>
    rw [pd_prim]
    cases desPrim env p j with
    | ub => intro a ha; cases ha
    | reject e => exact sure_threw _ _ _
    | ok pv => intro a ha; cases ha
  | vec t =>
    cases j with
    | arr js => rw [pd_vec env hu _ _ _ js t ht]; exact (pSame_sure (fun j hj => ihj j (size_item hj) t ht) 0 segs).map
    | _ => exact hna (fun _ h => by cases h) (.inl ⟨_, rfl⟩)
  | arr n t =>
    cases j with
    | arr js =>
      rw [pd_arr env hu _ _ _ js n t ht]
      have h1 := pSame_sure (fun j hj => ihj j (size_item hj) t ht) 0 segs
      split
      · cases hp : pSame env t true js 0 segs with
        | ub => intro a ha; cases ha
        | threw s e => intro a ha; cases ha
        | done ok vs =>
          cases ok with
          | false => exact absurd hp (h1 vs)
          | true => intro a ha; cases ha
      · exact sure_threw _ _ _
    | _ => exact hna (fun _ h => by cases h) (.inr (.inl ⟨_, _, rfl⟩))
  | set t =>
    cases j with
    | arr js => rw [pd_set env hu _ _ _ js t ht]; exact (pSame_sure (fun j hj => ihj j (size_item hj) t ht) 0 segs).map
    | _ => exact hna (fun _ h => by cases h) (.inr (.inr (.inl ⟨_, rfl⟩)))
  | map o t =>
    cases j with
    | obj ms => rw [pd_map env hu _ _ _ ms o t ht]; exact (pEntries_sure (fun p hp => ihj p.2 (size_field hp) t ht) segs).map
    | _ => exact hno (fun _ h => by cases h) (.inl ⟨_, _, rfl⟩)
  | dict t =>
    cases j with
    | arr js =>
      rw [pd_dict env hu _ _ _ js t ht]
      exact (pSame_sure (fun j hj => ihj j (size_item hj) _ (by simpa [Ty.unshared, Ty.unshareds] using ht)) 0 segs).map
    | _ => exact hna (fun _ h => by cases h) (.inr (.inr (.inr (.inl ⟨_, rfl⟩))))
  | tuple ts =>
    cases j with
    | arr js =>
      rw [pd_tuple env hu _ _ _ js ts ht]
      split
      · exact (pTuple_sure (fun j hj t ht' => ihj j (size_item hj) t ((Ty.unshareds_iff ts).1 ht t ht')) _ 0 segs).map
      · exact sure_threw _ _ _
    | _ => exact hna (fun _ h => by cases h) (.inr (.inr (.inr (.inr ⟨_, rfl⟩))))
  | variant ts =>
    rw [pd_variant env hu _ _ _ j ts ht]
    cases pAll env j ts 0 segs with
    | ub => intro a ha; cases ha
    | threw s e => intro a ha; cases ha
    | done ok v =>
      cases ok with
      | true => intro a ha; cases ha
      | false => exact sure_threw _ _ _
  | cls c =>
    cases j with
    | obj ms => rw [pd_cls env hu]; exact (pMembers_sure (fun p hp m hm => ihj p.2 (size_field hp) m.ty (hu c m hm)) _ segs).map
    | _ => exact hno (fun _ h => by cases h) (.inr ⟨_, rfl⟩)
  | uptr t =>
    rw [pd_uptr env hu _ _ _ j t ht]
    have h1 := iht t (by simp) ht (env.ctor t) segs
    cases hp : pd env j true t (env.ctor t) segs with
    | ub => intro a ha; cases ha
    | threw s e => intro a ha; cases ha
    | done ok v =>
      cases ok with
      | false => exact absurd hp (h1 v)
      | true => intro a ha; cases ha
  | sptr t => cases ht

/-! ## Outcomes of parts -/

/-- What the caller sees. -/
def PRes.thrown : PRes Val → Thrown
  | .ub => .ub
  | .threw segs e => .threw (pathStr segs) e
  | .done _ v => .returned v

theorem deserializeThrow_thrown (env : Env) (hu : env.Unshared) (t : Ty) (ht : t.unshared = true) (root : Json) (next : Nat) :
    deserializeThrow env t root next = (pd env root true t (env.fresh t) []).thrown := by
  rw [deserializeThrow_pd env hu t ht]
  cases pd env root true t (env.fresh t) [] <;> rfl

/-- The first part that is not read decides; `g` are the segments of the part. -/
def seqParts : List (List Seg × PRes Val) → PRes (List Val)
  | [] => .done true []
  | (g, r) :: rest =>
      match r with
      | .ub => .ub
      | .threw s e => .threw (s ++ g) e
      | .done _ v => (seqParts rest).map (v :: ·)

theorem seqParts_returned {ps : List (List Seg × PRes Val)} {vs : List Val} (h : ps.map (·.2.thrown) = vs.map .returned) : seqParts ps = .done true vs := by
  induction ps generalizing vs with
  | nil => cases vs with
    | nil => rfl
    | cons _ _ => cases h
  | cons p ps ih =>
    obtain ⟨g, r⟩ := p
    cases vs with
    | nil => cases h
    | cons v vs =>
      simp only [List.map_cons, List.cons.injEq] at h
      cases r with
      | ub => cases h.1
      | threw s e => cases h.1
      | done ok w =>
        have : w = v := by simpa [PRes.thrown] using h.1
        simp only [seqParts, ih h.2, PRes.map, this]

theorem seqParts_threw {ps : List (List Seg × PRes Val)} {vs : List Val} {p : Str} {e : Err} {rest : List Thrown}
    (h : ps.map (·.2.thrown) = vs.map .returned ++ .threw p e :: rest) :
    ∃ g r s, ps[vs.length]? = some (g, r) ∧ pathStr s = p ∧ seqParts ps = .threw (s ++ g) e := by
  induction ps generalizing vs with
  | nil => simp at h
  | cons q ps ih =>
    obtain ⟨g, r⟩ := q
    cases vs with
    | nil =>
      simp only [List.map_cons, List.map_nil, List.nil_append, List.cons.injEq] at h
      cases r with
      | ub => cases h.1
      | done ok w => cases h.1
      | threw s e' =>
        simp only [PRes.thrown, Thrown.threw.injEq] at h
        exact ⟨g, _, s, rfl, h.1.1, by rw [seqParts, h.1.2]⟩
    | cons v vs =>
      simp only [List.map_cons, List.cons_append, List.cons.injEq] at h
      cases r with
      | ub => cases h.1
      | threw s e => cases h.1
      | done ok w =>
        obtain ⟨g', r', s, h1, h2, h3⟩ := ih h.2
        exact ⟨g', r', s, by simpa using h1, h2, by simp only [seqParts, h3, PRes.map]⟩

theorem seqParts_ub {ps : List (List Seg × PRes Val)} {vs : List Val} {rest : List Thrown}
    (h : ps.map (·.2.thrown) = vs.map .returned ++ .ub :: rest) : seqParts ps = .ub := by
  induction ps generalizing vs with
  | nil => simp at h
  | cons q ps ih =>
    obtain ⟨g, r⟩ := q
    cases vs with
    | nil =>
      simp only [List.map_cons, List.map_nil, List.nil_append, List.cons.injEq] at h
      cases r with
      | ub => rfl
      | done ok w => cases h.1
      | threw s e => cases h.1
    | cons v vs =>
      simp only [List.map_cons, List.cons_append, List.cons.injEq] at h
      cases r with
      | ub => cases h.1
      | threw s e => cases h.1
      | done ok w => simp only [seqParts, ih h.2, PRes.map]

/-- A part read with all segments, in terms of the part read alone. -/
theorem part_at (env : Env) (hu : env.Unshared) (j : Json) (t : Ty) (ht : t.unshared = true) (tg : Val) (segs : List Seg) :
    pd env j true t tg segs = (pd env j true t tg []).shift segs := shifts env hu j t ht true tg [] segs

/-- The elements of an array as parts. -/
def sameParts (env : Env) (t : Ty) (js : List Json) (k : Nat) : List (List Seg × PRes Val) :=
  (js.zipIdx k).map fun p => ([.index p.2], pd env p.1 true t (env.fresh t) [])

theorem pSame_parts (env : Env) (hu : env.Unshared) (t : Ty) (ht : t.unshared = true) (js : List Json) (k : Nat) :
    pSame env t true js k [] = seqParts (sameParts env t js k) := by
  induction js generalizing k with
  | nil => rfl
  | cons j js ih =>
    simp only [pSame, sameParts, List.zipIdx_cons, List.map_cons, seqParts]
    rw [part_at env hu j t ht]
    have hs := sure env hu j t ht (env.fresh t) []
    cases hp : pd env j true t (env.fresh t) [] with
    | ub => rfl
    | threw s e => rfl
    | done ok v =>
      cases ok with
      | false => exact absurd hp (hs v)
      | true => simp only [PRes.shift_done]; rw [ih (k + 1)]; rfl

theorem sameParts_thrown (env : Env) (hu : env.Unshared) (t : Ty) (ht : t.unshared = true) (js : List Json) (k n : Nat) :
    (sameParts env t js k).map (·.2.thrown) = js.map (deserializeThrow env t · n) := by
  induction js generalizing k with
  | nil => rfl
  | cons j js ih =>
    simp only [sameParts, List.zipIdx_cons, List.map_cons, deserializeThrow_thrown env hu t ht]
    have := ih (k + 1)
    simp only [sameParts, deserializeThrow_thrown env hu t ht] at this
    rw [this]

theorem sameParts_get {env : Env} {t : Ty} {js : List Json} {k i : Nat} {g : List Seg} {r : PRes Val} (h : (sameParts env t js k)[i]? = some (g, r)) :
    g = [.index (k + i)] ∧ i < js.length := by
  simp only [sameParts, List.getElem?_map, List.getElem?_zipIdx, Option.map_map, Option.map_eq_some_iff] at h
  obtain ⟨j, h1, h2⟩ := h
  simp only [Function.comp, Prod.mk.injEq] at h2
  exact ⟨h2.1.symm, (List.getElem?_eq_some_iff.1 h1).1⟩

/-- The elements of a tuple as parts. -/
def tupleParts (env : Env) (js : List Json) (ts : List Ty) (k : Nat) : List (List Seg × PRes Val) :=
  ((js.zip ts).zipIdx k).map fun p => ([.index p.2], pd env p.1.1 true p.1.2 (env.fresh p.1.2) [])

theorem pTuple_parts (env : Env) (hu : env.Unshared) (js : List Json) (ts : List Ty) (ht : ∀ t ∈ ts, t.unshared = true) (tg : List Val)
    (htg : ∀ (i : Nat) (t : Ty), ts[i]? = some t → (tg[i]?).getD (env.fresh t) = env.fresh t) (k : Nat) :
    pTuple env true js ts tg k [] = seqParts (tupleParts env js ts k) := by
  induction js generalizing k ts tg with
  | nil => cases ts <;> rfl
  | cons j js ih =>
    cases ts with
    | nil => rfl
    | cons t ts =>
      have h0 : tg.headD (env.fresh t) = env.fresh t := by
        have := htg 0 t rfl
        cases tg <;> simp_all
      simp only [pTuple, tupleParts, List.zip_cons_cons, List.zipIdx_cons, List.map_cons, seqParts, h0]
      rw [part_at env hu j t (ht t (by simp))]
      have hs := sure env hu j t (ht t (by simp)) (env.fresh t) []
      cases hp : pd env j true t (env.fresh t) [] with
      | ub => rfl
      | threw s e => rfl
      | done ok v =>
        cases ok with
        | false => exact absurd hp (hs v)
        | true =>
          simp only [PRes.shift_done]
          rw [ih ts (fun t h => ht t (by simp [h])) tg.tail (fun i t h => by rw [List.getElem?_tail]; exact htg (i + 1) t (by simpa using h)) (k + 1)]
          rfl

theorem tupleParts_thrown (env : Env) (hu : env.Unshared) (js : List Json) (ts : List Ty) (ht : ∀ t ∈ ts, t.unshared = true) (k n : Nat) :
    (tupleParts env js ts k).map (·.2.thrown) = (js.zip ts).map fun p => deserializeThrow env p.2 p.1 n := by
  induction js generalizing k ts with
  | nil => rfl
  | cons j js ih =>
    cases ts with
    | nil => rfl
    | cons t ts =>
      simp only [tupleParts, List.zip_cons_cons, List.zipIdx_cons, List.map_cons]
      have := ih ts (fun t h => ht t (by simp [h])) (k + 1)
      simp only [tupleParts] at this
      rw [this, deserializeThrow_thrown env hu t (ht t (by simp))]

theorem tupleParts_get {env : Env} {js : List Json} {ts : List Ty} {k i : Nat} {g : List Seg} {r : PRes Val} (h : (tupleParts env js ts k)[i]? = some (g, r)) :
    g = [.index (k + i)] ∧ i < js.length := by
  simp only [tupleParts, List.getElem?_map, List.getElem?_zipIdx, Option.map_map, Option.map_eq_some_iff] at h
  obtain ⟨j, h1, h2⟩ := h
  simp only [Function.comp, Prod.mk.injEq] at h2
  have := (List.getElem?_eq_some_iff.1 h1).1
  rw [List.length_zip] at this
  exact ⟨h2.1.symm, by omega⟩

/-- The members of an object as the entries of a map. -/
def entryParts (env : Env) (t : Ty) (ms : List (Str × Json)) : List (List Seg × PRes Val) :=
  ms.map fun p => ([Seg.name (cstr p.1)], pd env p.2 true t (env.fresh t) [])

theorem pEntries_parts (env : Env) (hu : env.Unshared) (t : Ty) (ht : t.unshared = true) (ms : List (Str × Json)) :
    pEntries env t true ms [] = (seqParts (entryParts env t ms)).map fun vs => (ms.map fun p => cstr p.1).zip vs := by
  induction ms with
  | nil => rfl
  | cons p ms ih =>
    obtain ⟨key, j⟩ := p
    simp only [pEntries, entryParts, List.map_cons, seqParts]
    rw [part_at env hu j t ht]
    have hs := sure env hu j t ht (env.fresh t) []
    cases hp : pd env j true t (env.fresh t) [] with
    | ub => rfl
    | threw s e => rfl
    | done ok v =>
      cases ok with
      | false => exact absurd hp (hs v)
      | true =>
        simp only [PRes.shift_done]
        rw [ih]
        show _ = ((seqParts (entryParts env t ms)).map (v :: ·)).map _
        cases seqParts (entryParts env t ms) <;> rfl

/-- The member variables of a class as parts. -/
def memberPart (env : Env) (fs : List (Str × Json)) (m : Member) : List Seg × PRes Val :=
  match findMember m.name fs with
  | some (_, j) => ([Seg.name (cstr m.name)], (pd env j true m.ty (env.fresh m.ty) []).map fun v => if m.kind = .optional then .present v else v)
  | none =>
      match m.kind with
      | .optional => ([], .done true .absent)
      | .default => ([], .done true (env.fresh m.ty))
      | .required => ([], .threw [] (.missing m.name))

theorem pMembers_parts (env : Env) (hu : env.Unshared) (fs : List (Str × Json)) (l : List Member) (ht : ∀ m ∈ l, m.ty.unshared = true) (tg : List Val)
    (htg : ∀ (i : Nat) (m : Member), l[i]? = some m → m.kind ≠ .optional → (tg[i]?).getD (env.fresh m.ty) = env.fresh m.ty) :
    pMembers env true fs [] l tg true = seqParts (l.map (memberPart env fs)) := by
  induction l generalizing tg with
  | nil => rfl
  | cons m l ih =>
    have h0 : m.kind ≠ .optional → tg.headD (env.fresh m.ty) = env.fresh m.ty := fun hk => by
      have := htg 0 m rfl hk
      cases tg <;> simp_all
    have ih' := ih (fun m h => ht m (by simp [h])) tg.tail (fun i m h hk => by rw [List.getElem?_tail]; exact htg (i + 1) m (by simpa using h) hk)
    simp only [pMembers, List.map_cons, memberPart]
    cases hf : findMember m.name fs with
    | none =>
      simp only
      cases hk : m.kind with
      | optional => simp only [seqParts]; rw [ih']
      | default => simp only [seqParts]; rw [ih', h0 (by rw [hk]; decide)]
      | required => simp only [seqParts]; rfl
    | some r =>
      obtain ⟨i, j⟩ := r
      simp only
      have h1 : (if m.kind = .optional then env.fresh m.ty else tg.headD (env.fresh m.ty)) = env.fresh m.ty := by
        split
        · rfl
        · rename_i hk; exact h0 hk
      rw [h1, part_at env hu j m.ty (ht m (by simp))]
      have hs := sure env hu j m.ty (ht m (by simp)) (env.fresh m.ty) []
      cases hp : pd env j true m.ty (env.fresh m.ty) [] with
      | ub => rfl
      | threw s e => rfl
      | done ok v =>
        cases ok with
        | false => exact absurd hp (hs v)
        | true => simp only [PRes.shift_done, PRes.map, seqParts]; rw [ih']

end Verif.Core
