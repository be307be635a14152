import Verif.ReadMore

/-!
# Types with shared pointers, documents without references

A document without `"$ref"` is read as a type with `std::shared_ptr` with the same verdict as if all of them were
`std::unique_ptr`.
-/

namespace Verif.Core

mutual
/-- No object of the document has a member `"$ref"`. -/
def Json.noRef : Json → Prop
  | .arr js => Json.noRefAll js
  | .obj ms => (lit "$ref") ∉ ms.map (·.1) ∧ Json.noRefFields ms
  | _ => True

/-- `noRef` for the elements of an array. -/
def Json.noRefAll : List Json → Prop
  | [] => True
  | j :: js => j.noRef ∧ Json.noRefAll js

/-- `noRef` for the members of an object. -/
def Json.noRefFields : List (Str × Json) → Prop
  | [] => True
  | (_, j) :: ms => j.noRef ∧ Json.noRefFields ms
end

theorem noRef_item {js : List Json} (h : Json.noRef (.arr js)) {j : Json} (hj : j ∈ js) : j.noRef := by
  simp only [Json.noRef] at h
  induction js with
  | nil => cases hj
  | cons j' js ih =>
    simp only [Json.noRefAll] at h
    rcases List.mem_cons.1 hj with rfl | hj
    · exact h.1
    · exact ih h.2 hj

theorem noRef_field {ms : List (Str × Json)} (h : Json.noRef (.obj ms)) {p : Str × Json} (hp : p ∈ ms) : p.2.noRef := by
  simp only [Json.noRef] at h
  replace h := h.2
  induction ms with
  | nil => cases hp
  | cons p' ms ih =>
    obtain ⟨k, j⟩ := p'
    simp only [Json.noRefFields] at h
    rcases List.mem_cons.1 hp with rfl | hp
    · exact h.1
    · exact ih hp h.2

theorem noRef_refMember {j : Json} (h : j.noRef) : refMember j = none := by
  cases j with
  | obj ms =>
    simp only [Json.noRef] at h
    simp only [refMember, Option.map_eq_none_iff]
    cases hf : findMember (lit "$ref") ms with
    | none => rfl
    | some q => exact absurd (List.mem_map.2 ⟨_, findMember_mem hf, rfl⟩) h.1
  | _ => rfl

mutual
/-- The type with `std::unique_ptr` in place of `std::shared_ptr`. -/
def Ty.lower : Ty → Ty
  | .prim p => .prim p
  | .vec t => .vec t.lower
  | .arr n t => .arr n t.lower
  | .set t => .set t.lower
  | .map o t => .map o t.lower
  | .dict t => .dict t.lower
  | .tuple ts => .tuple (Ty.lowers ts)
  | .variant ts => .variant (Ty.lowers ts)
  | .cls c => .cls c
  | .uptr t => .uptr t.lower
  | .sptr t => .uptr t.lower

/-- `lower` for lists. -/
def Ty.lowers : List Ty → List Ty
  | [] => []
  | t :: ts => t.lower :: Ty.lowers ts
end

/-- The member with its type lowered. -/
def Member.lower (m : Member) : Member := { m with ty := m.ty.lower }

/-- The classes with `std::unique_ptr` in place of `std::shared_ptr`. -/
def Env.lower (env : Env) : Env := { env with classes := fun c => { env.classes c with members := (env.classes c).members.map Member.lower } }

theorem lowers_map (ts : List Ty) : Ty.lowers ts = ts.map Ty.lower := by
  induction ts with
  | nil => rfl
  | cons t ts ih => simp [Ty.lowers, ih]

mutual
theorem lower_unshared : ∀ t : Ty, t.lower.unshared = true
  | .prim _ => rfl
  | .vec t => lower_unshared t
  | .arr _ t => lower_unshared t
  | .set t => lower_unshared t
  | .map _ t => lower_unshared t
  | .dict t => lower_unshared t
  | .tuple ts => lowers_unshared ts
  | .variant ts => lowers_unshared ts
  | .cls _ => rfl
  | .uptr t => lower_unshared t
  | .sptr t => lower_unshared t

theorem lowers_unshared : ∀ ts : List Ty, Ty.unshareds (Ty.lowers ts) = true
  | [] => rfl
  | t :: ts => by simp [Ty.lowers, Ty.unshareds, lower_unshared t, lowers_unshared ts]
end

theorem Env.lower_members (env : Env) (c : Nat) : env.lower.members c = (env.members c).map Member.lower := rfl

theorem lower_env_unshared (env : Env) : env.lower.Unshared := by
  intro c m hm
  rw [Env.lower_members] at hm
  obtain ⟨m', -, rfl⟩ := List.mem_map.1 hm
  exact lower_unshared _

/-- The outcome without the value. -/
def DRes.verdict {α : Type} : DRes α → PRes Unit
  | .ub => .ub
  | .threw s e => .threw s e
  | .done ok _ _ => .done ok ()

theorem DRes.verdict_map {α β : Type} (f : α → β) (r : DRes α) : (r.map f).verdict = r.verdict := by cases r <;> rfl

theorem verdict_reject {α : Type} (exc : Bool) (segs : List Seg) (e : Err) (target target' : α) (st st' : DState) :
    (DRes.reject exc segs e target st).verdict = (DRes.reject exc segs e target' st').verdict := by cases exc <;> rfl

/-- Reading with and without sharing has the same verdict. -/
def SameVerdict (env : Env) (j : Json) (t : Ty) : Prop :=
  ∀ exc target target' segs root root' loc loc' st st',
    (deser env root j exc t target loc segs st).verdict = (deser env.lower root' j exc t.lower target' loc' segs st').verdict

theorem runSame_verdict (env : Env) (t : Ty) (exc : Bool) (root root' : Json) (js : List Json) (h : ∀ j ∈ js, SameVerdict env j t) :
    ∀ k loc loc' segs st st', (runSame env t exc (js.map (deser env root)) k loc segs st).verdict =
      (runSame env.lower t.lower exc (js.map (deser env.lower root')) k loc' segs st').verdict := by
  induction js with
  | nil => intro k loc loc' segs st st'; rfl
  | cons j js ih =>
    intro k loc loc' segs st st'
    simp only [List.map_cons, runSame]
    have h1 := h j (by simp) exc (env.fresh t) (env.lower.fresh t.lower) (.index k :: segs) root root' (k :: loc) (k :: loc') st st'
    have ih := ih (fun j hj => h j (by simp [hj]))
    generalize deser env root j exc t (env.fresh t) (k :: loc) (.index k :: segs) st = r at h1 ⊢
    generalize deser env.lower root' j exc t.lower (env.lower.fresh t.lower) (k :: loc') (.index k :: segs) st' = r' at h1 ⊢
    cases r with
    | ub => cases r' <;> first | rfl | cases h1
    | threw s e => cases r' <;> first | exact h1 | cases h1
    | done ok v st1 =>
      cases r' with
      | ub => cases h1
      | threw s e => cases h1
      | done ok' v' st1' =>
        have : ok = ok' := by simpa [DRes.verdict] using h1
        subst this
        cases ok with
        | false => rfl
        | true => simp only [DRes.verdict_map]; exact ih ..

theorem runTuple_verdict (env : Env) (exc : Bool) (root root' : Json) (js : List Json) :
    ∀ ts, (∀ j ∈ js, ∀ t ∈ ts, SameVerdict env j t) → ∀ targets targets' k loc loc' segs st st',
      (runTuple env exc (js.map (deser env root)) ts targets k loc segs st).verdict =
        (runTuple env.lower exc (js.map (deser env.lower root')) (Ty.lowers ts) targets' k loc' segs st').verdict := by
  induction js with
  | nil => intro ts h targets targets' k loc loc' segs st st'; cases ts <;> rfl
  | cons j js ih =>
    intro ts h targets targets' k loc loc' segs st st'
    cases ts with
    | nil => rfl
    | cons t ts =>
      simp only [List.map_cons, runTuple, Ty.lowers]
      have h1 := h j (by simp) t (by simp) exc (targets.headD (env.fresh t)) (targets'.headD (env.lower.fresh t.lower)) (.index k :: segs) root root'
        (k :: loc) (k :: loc') st st'
      have ih := ih ts (fun j hj t ht => h j (by simp [hj]) t (by simp [ht]))
      generalize deser env root j exc t (targets.headD (env.fresh t)) (k :: loc) (.index k :: segs) st = r at h1 ⊢
      generalize deser env.lower root' j exc t.lower (targets'.headD (env.lower.fresh t.lower)) (k :: loc') (.index k :: segs) st' = r' at h1 ⊢
      cases r with
      | ub => cases r' <;> first | rfl | cases h1
      | threw s e => cases r' <;> first | exact h1 | cases h1
      | done ok v st1 =>
        cases r' with
        | ub => cases h1
        | threw s e => cases h1
        | done ok' v' st1' =>
          have : ok = ok' := by simpa [DRes.verdict] using h1
          subst this
          cases ok with
          | false => rfl
          | true => simp only [DRes.verdict_map]; exact ih ..

theorem runEntries_verdict (env : Env) (t : Ty) (exc : Bool) (root root' : Json) (ms : List (Str × Json)) (h : ∀ p ∈ ms, SameVerdict env p.2 t) :
    ∀ k loc loc' segs st st', (runEntries env t exc (ms.map fun p => (p.1, deser env root p.2)) k loc segs st).verdict =
      (runEntries env.lower t.lower exc (ms.map fun p => (p.1, deser env.lower root' p.2)) k loc' segs st').verdict := by
  induction ms with
  | nil => intro k loc loc' segs st st'; rfl
  | cons p ms ih =>
    obtain ⟨key, j⟩ := p
    intro k loc loc' segs st st'
    simp only [List.map_cons, runEntries]
    have h1 := h (key, j) (by simp) exc (env.fresh t) (env.lower.fresh t.lower) (Seg.name (cstr key) :: segs) root root' (k :: loc) (k :: loc') st st'
    have ih := ih (fun j hj => h j (by simp [hj]))
    simp only at h1
    generalize deser env root j exc t (env.fresh t) (k :: loc) (Seg.name (cstr key) :: segs) st = r at h1 ⊢
    generalize deser env.lower root' j exc t.lower (env.lower.fresh t.lower) (k :: loc') (Seg.name (cstr key) :: segs) st' = r' at h1 ⊢
    cases r with
    | ub => cases r' <;> first | rfl | cases h1
    | threw s e => cases r' <;> first | exact h1 | cases h1
    | done ok v st1 =>
      cases r' with
      | ub => cases h1
      | threw s e => cases h1
      | done ok' v' st1' =>
        have : ok = ok' := by simpa [DRes.verdict] using h1
        subst this
        cases ok with
        | false => rfl
        | true => simp only [DRes.verdict_map]; exact ih ..

theorem runMembers_verdict (env : Env) (exc : Bool) (root root' : Json) (fs : List (Str × Json)) (loc loc' : Loc) (segs : List Seg) (ms : List Member)
    (h : ∀ p ∈ fs, ∀ m ∈ ms, SameVerdict env p.2 m.ty) :
    ∀ targets targets' res st st', (runMembers env exc (fs.map fun p => (p.1, deser env root p.2)) loc segs ms targets res st).verdict =
      (runMembers env.lower exc (fs.map fun p => (p.1, deser env.lower root' p.2)) loc' segs (ms.map Member.lower) targets' res st').verdict := by
  induction ms with
  | nil => intro targets targets' res st st'; rfl
  | cons m ms ih =>
    intro targets targets' res st st'
    have ih := ih (fun p hp m' hm => h p hp m' (by simp [hm]))
    simp only [List.map_cons, runMembers, findMember_map]
    have hname : m.lower.name = m.name := rfl
    have hkind : m.lower.kind = m.kind := rfl
    have hty : m.lower.ty = m.ty.lower := rfl
    simp only [hname, hkind, hty]
    cases hf : findMember m.name fs with
    | none =>
      simp only [Option.map_none]
      cases m.kind with
      | required => cases exc <;> simp [DRes.verdict_map] <;> first | rfl | exact ih ..
      | optional => simp only [DRes.verdict_map]; exact ih ..
      | default => simp only [DRes.verdict_map]; exact ih ..
    | some q =>
      obtain ⟨i, j⟩ := q
      simp only [Option.map_some]
      have h1 := h (m.name, j) (findMember_mem hf) m (by simp) exc (if m.kind = .optional then env.fresh m.ty else targets.headD (env.fresh m.ty))
        (if m.kind = .optional then env.lower.fresh m.ty.lower else targets'.headD (env.lower.fresh m.ty.lower))
        (Seg.name (cstr m.name) :: segs) root root' (i :: loc) (i :: loc') st st'
      simp only at h1
      generalize deser env root j exc m.ty _ (i :: loc) _ st = r at h1 ⊢
      generalize deser env.lower root' j exc m.ty.lower _ (i :: loc') _ st' = r' at h1 ⊢
      cases r with
      | ub => cases r' <;> first | rfl | cases h1
      | threw s e => cases r' <;> first | exact h1 | cases h1
      | done ok v st1 =>
        cases r' with
        | ub => cases h1
        | threw s e => cases h1
        | done ok' v' st1' =>
          have : ok = ok' := by simpa [DRes.verdict] using h1
          subst this
          simp only [DRes.verdict_map]
          exact ih ..

theorem tryAll_verdict (env : Env) (root root' j : Json) (ts : List Ty) (h : ∀ t ∈ ts, SameVerdict env j t) :
    ∀ i loc loc' segs st st', (tryAll env root j ts i loc segs st).verdict = (tryAll env.lower root' j (Ty.lowers ts) i loc' segs st').verdict := by
  induction ts with
  | nil => intro i loc loc' segs st st'; rfl
  | cons t ts ih =>
    intro i loc loc' segs st st'
    simp only [tryAll, Ty.lowers]
    have h1 := h t (by simp) false (env.fresh t) (env.lower.fresh t.lower) segs root root' loc loc' st st'
    have ih := ih (fun t ht => h t (by simp [ht]))
    generalize deser env root j false t (env.fresh t) loc segs st = r at h1 ⊢
    generalize deser env.lower root' j false t.lower (env.lower.fresh t.lower) loc' segs st' = r' at h1 ⊢
    cases r with
    | ub => cases r' <;> first | rfl | cases h1
    | threw s e => cases r' <;> first | exact h1 | cases h1
    | done ok v st1 =>
      cases r' with
      | ub => cases h1
      | threw s e => cases h1
      | done ok' v' st1' =>
        have : ok = ok' := by simpa [DRes.verdict] using h1
        subst this
        cases ok with
        | false => exact ih ..
        | true => rfl

theorem lowers_length (ts : List Ty) : (Ty.lowers ts).length = ts.length := by rw [lowers_map]; simp

theorem desPrim_lower (env : Env) (p : Prim) (j : Json) : desPrim env.lower p j = desPrim env p j := by cases p <;> rfl

theorem sameVerdict (env : Env) : ∀ j t, j.noRef → SameVerdict env j t := by
  apply lexInd
  intro j t ihj iht hn exc target target' segs root root' loc loc' st st'
  have hitem : ∀ js, j = .arr js → ∀ t', ∀ j' ∈ js, SameVerdict env j' t' := by
    rintro js rfl t' j' hj'
    exact ihj j' (size_item hj') t' (noRef_item hn hj')
  have hfield : ∀ ms, j = .obj ms → ∀ t', ∀ p ∈ ms, SameVerdict env p.2 t' := by
    rintro ms rfl t' p hp
    exact ihj p.2 (size_field hp) t' (noRef_field hn hp)
  cases t with
  | prim p =>
    rw [Ty.lower, deser_prim, deser_prim, desPrim_lower]
    cases desPrim env p j with
    | ub => rfl
    | reject e => exact verdict_reject ..
    | ok pv => rfl
  | vec t =>
    rw [Ty.lower, deser_vec, deser_vec]
    cases j with
    | arr js => simp only [DRes.verdict_map]; exact runSame_verdict env t exc root root' js (hitem js rfl t) ..
    | _ => exact verdict_reject ..
  | arr n t =>
    rw [Ty.lower, deser_arr, deser_arr]
    cases j with
    | arr js =>
      simp only
      split
      · have h1 := runSame_verdict env t exc root root' js (hitem js rfl t) 0 loc loc' segs st st'
        generalize runSame env t exc (js.map (deser env root)) 0 loc segs st = r at h1 ⊢
        generalize runSame env.lower t.lower exc (js.map (deser env.lower root')) 0 loc' segs st' = r' at h1 ⊢
        cases r with
        | ub => cases r' <;> first | rfl | cases h1
        | threw s e => cases r' <;> first | exact h1 | cases h1
        | done ok v st1 =>
          cases r' with
          | ub => cases h1
          | threw s e => cases h1
          | done ok' v' st1' =>
            have : ok = ok' := by simpa [DRes.verdict] using h1
            subst this
            cases ok <;> rfl
      · exact verdict_reject ..
    | _ => exact verdict_reject ..
  | set t =>
    rw [Ty.lower, deser_set, deser_set]
    cases j with
    | arr js => simp only [DRes.verdict_map]; exact runSame_verdict env t exc root root' js (hitem js rfl t) ..
    | _ => exact verdict_reject ..
  | map o t =>
    rw [Ty.lower, deser_map, deser_map]
    cases j with
    | obj ms => simp only [DRes.verdict_map]; exact runEntries_verdict env t exc root root' ms (hfield ms rfl t) ..
    | _ => exact verdict_reject ..
  | dict t =>
    rw [Ty.lower, deser_dict, deser_dict]
    cases j with
    | arr js => simp only [DRes.verdict_map]; exact runSame_verdict env (.tuple [.prim .str, t]) exc root root' js (hitem js rfl _) ..
    | _ => exact verdict_reject ..
  | tuple ts =>
    rw [Ty.lower, deser_tuple, deser_tuple, lowers_length]
    cases j with
    | arr js =>
      simp only
      split
      · simp only [DRes.verdict_map]; exact runTuple_verdict env exc root root' js ts (fun j hj t _ => hitem js rfl t j hj) ..
      · exact verdict_reject ..
    | _ => exact verdict_reject ..
  | variant ts =>
    rw [Ty.lower, deser_variant, deser_variant]
    have h1 := tryAll_verdict env root root' j ts (fun t ht => iht t (size_alt ht) hn) 0 loc loc' segs st st'
    generalize tryAll env root j ts 0 loc segs st = r at h1 ⊢
    generalize tryAll env.lower root' j (Ty.lowers ts) 0 loc' segs st' = r' at h1 ⊢
    cases r with
    | ub => cases r' <;> first | rfl | cases h1
    | threw s e => cases r' <;> first | exact h1 | cases h1
    | done ok v st1 =>
      cases r' with
      | ub => cases h1
      | threw s e => cases h1
      | done ok' v' st1' =>
        have : ok = ok' := by simpa [DRes.verdict] using h1
        subst this
        cases ok with
        | true => rfl
        | false => exact verdict_reject ..
  | cls c =>
    rw [Ty.lower, deser_cls, deser_cls]
    cases j with
    | obj ms =>
      simp only [DRes.verdict_map, Env.lower_members]
      exact runMembers_verdict env exc root root' ms loc loc' segs _ (fun p hp m _ => hfield ms rfl m.ty p hp) ..
    | _ => exact verdict_reject ..
  | uptr t =>
    rw [Ty.lower, deser_uptr, deser_uptr]
    have h1 := iht t (by simp) hn exc (env.ctor t) (env.lower.ctor t.lower) segs root root' loc loc' st st'
    generalize deser env root j exc t (env.ctor t) loc segs st = r at h1 ⊢
    generalize deser env.lower root' j exc t.lower (env.lower.ctor t.lower) loc' segs st' = r' at h1 ⊢
    cases r with
    | ub => cases r' <;> first | rfl | cases h1
    | threw s e => cases r' <;> first | exact h1 | cases h1
    | done ok v st1 =>
      cases r' with
      | ub => cases h1
      | threw s e => cases h1
      | done ok' v' st1' =>
        have : ok = ok' := by simpa [DRes.verdict] using h1
        subst this
        cases ok <;> rfl
  | sptr t =>
    rw [Ty.lower, deser_sptr, deser_uptr, noRef_refMember hn]
    simp only
    have h1 := iht t (by simp) hn exc (env.ctor t) (env.lower.ctor t.lower) segs root root' loc loc' { st with next := st.next + 1 } st'
    generalize deser env root j exc t (env.ctor t) loc segs { st with next := st.next + 1 } = r at h1 ⊢
    generalize deser env.lower root' j exc t.lower (env.lower.ctor t.lower) loc' segs st' = r' at h1 ⊢
    cases r with
    | ub => cases r' <;> first | rfl | cases h1
    | threw s e => cases r' <;> first | exact h1 | cases h1
    | done ok v st1 =>
      cases r' with
      | ub => cases h1
      | threw s e => cases h1
      | done ok' v' st1' =>
        have : ok = ok' := by simpa [DRes.verdict] using h1
        subst this
        cases ok <;> rfl

/-! ## The two variants of the reader -/

/-- What the throwing variant returns, the boolean variant accepts with the same value and the same table. -/
def SameEnd {α : Type} (r r' : DRes α) : Prop := ∀ ok a st, r = .done ok a st → ok = true ∧ r' = .done true a st

theorem SameEnd.map {α β : Type} {f : α → β} {r r' : DRes α} (h : SameEnd r r') : SameEnd (r.map f) (r'.map f) := by
  intro ok b st hb
  cases r with
  | ub => cases hb
  | threw s e => cases hb
  | done ok' a st' =>
    cases hb
    obtain ⟨h1, h2⟩ := h ok a st rfl
    exact ⟨h1, by rw [h2]; rfl⟩

theorem SameEnd.reject {α : Type} (segs : List Seg) (e : Err) (tg : α) (st : DState) (r : DRes α) : SameEnd (DRes.reject true segs e tg st) r := by
  intro ok a st' h
  simp [DRes.reject] at h

/-- The two variants read the node alike if the throwing one does not throw. -/
def SameModes (env : Env) (root j : Json) (t : Ty) : Prop :=
  ∀ target loc segs st, SameEnd (deser env root j true t target loc segs st) (deser env root j false t target loc segs st)

theorem runSame_modes (env : Env) (t : Ty) (root : Json) (js : List Json) (h : ∀ j ∈ js, SameModes env root j t) : ∀ k loc segs st,
    SameEnd (runSame env t true (js.map (deser env root)) k loc segs st) (runSame env t false (js.map (deser env root)) k loc segs st) := by
  induction js with
  | nil => intro k loc segs st ok a st' ha; cases ha; exact ⟨rfl, rfl⟩
  | cons j js ih =>
    intro k loc segs st
    have hj := h j (by simp) (env.fresh t) (k :: loc) (.index k :: segs) st
    simp only [List.map_cons, runSame]
    cases hp : deser env root j true t (env.fresh t) (k :: loc) (.index k :: segs) st with
    | ub => intro ok a st' ha; cases ha
    | threw s e => intro ok a st' ha; cases ha
    | done ok v st1 =>
      obtain ⟨rfl, h2⟩ := hj ok v st1 hp
      rw [h2]
      exact (ih (fun j hj => h j (by simp [hj])) _ _ _ _).map

theorem runTuple_modes (env : Env) (root : Json) (js : List Json) : ∀ ts, (∀ j ∈ js, ∀ t ∈ ts, SameModes env root j t) → ∀ targets k loc segs st,
    SameEnd (runTuple env true (js.map (deser env root)) ts targets k loc segs st) (runTuple env false (js.map (deser env root)) ts targets k loc segs st) := by
  induction js with
  | nil => intro ts h targets k loc segs st ok a st' ha; cases ts <;> (cases ha; exact ⟨rfl, rfl⟩)
  | cons j js ih =>
    intro ts h targets k loc segs st
    cases ts with
    | nil => intro ok a st' ha; cases ha; exact ⟨rfl, rfl⟩
    | cons t ts =>
      have hj := h j (by simp) t (by simp) (targets.headD (env.fresh t)) (k :: loc) (.index k :: segs) st
      simp only [List.map_cons, runTuple]
      cases hp : deser env root j true t (targets.headD (env.fresh t)) (k :: loc) (.index k :: segs) st with
      | ub => intro ok a st' ha; cases ha
      | threw s e => intro ok a st' ha; cases ha
      | done ok v st1 =>
        obtain ⟨rfl, h2⟩ := hj ok v st1 hp
        rw [h2]
        exact (ih ts (fun j hj t ht => h j (by simp [hj]) t (by simp [ht])) _ _ _ _ _).map

theorem runEntries_modes (env : Env) (t : Ty) (root : Json) (ms : List (Str × Json)) (h : ∀ p ∈ ms, SameModes env root p.2 t) : ∀ k loc segs st,
    SameEnd (runEntries env t true (ms.map fun p => (p.1, deser env root p.2)) k loc segs st)
      (runEntries env t false (ms.map fun p => (p.1, deser env root p.2)) k loc segs st) := by
  induction ms with
  | nil => intro k loc segs st ok a st' ha; cases ha; exact ⟨rfl, rfl⟩
  | cons p ms ih =>
    obtain ⟨key, j⟩ := p
    intro k loc segs st
    have hj := h (key, j) (by simp) (env.fresh t) (k :: loc) (Seg.name (cstr key) :: segs) st
    simp only [List.map_cons, runEntries]
    cases hp : deser env root j true t (env.fresh t) (k :: loc) (Seg.name (cstr key) :: segs) st with
    | ub => intro ok a st' ha; cases ha
    | threw s e => intro ok a st' ha; cases ha
    | done ok v st1 =>
      obtain ⟨rfl, h2⟩ := hj ok v st1 hp
      simp only at h2
      rw [h2]
      exact (ih (fun j hj => h j (by simp [hj])) _ _ _ _).map

theorem runMembers_modes (env : Env) (root : Json) (fs : List (Str × Json)) (loc : Loc) (segs : List Seg) (ms : List Member)
    (h : ∀ p ∈ fs, ∀ m ∈ ms, SameModes env root p.2 m.ty) : ∀ targets st,
    SameEnd (runMembers env true (fs.map fun p => (p.1, deser env root p.2)) loc segs ms targets true st)
      (runMembers env false (fs.map fun p => (p.1, deser env root p.2)) loc segs ms targets true st) := by
  induction ms with
  | nil => intro targets st ok a st' ha; cases ha; exact ⟨rfl, rfl⟩
  | cons m ms ih =>
    intro targets st
    have ih := ih (fun p hp m' hm => h p hp m' (by simp [hm]))
    simp only [runMembers, findMember_map]
    cases hf : findMember m.name fs with
    | none =>
      simp only [Option.map_none]
      cases m.kind with
      | required => intro ok a st' ha; cases ha
      | optional => exact (ih _ _).map
      | default => exact (ih _ _).map
    | some q =>
      obtain ⟨i, j⟩ := q
      simp only [Option.map_some]
      have hj := h (m.name, j) (findMember_mem hf) m (by simp) (if m.kind = .optional then env.fresh m.ty else targets.headD (env.fresh m.ty))
        (i :: loc) (Seg.name (cstr m.name) :: segs) st
      cases hp : deser env root j true m.ty (if m.kind = .optional then env.fresh m.ty else targets.headD (env.fresh m.ty)) (i :: loc)
          (Seg.name (cstr m.name) :: segs) st with
      | ub => intro ok a st' ha; cases ha
      | threw s e => intro ok a st' ha; cases ha
      | done ok v st1 =>
        obtain ⟨rfl, h2⟩ := hj ok v st1 hp
        simp only at h2
        rw [h2]
        exact (ih _ _).map

theorem sameModes (env : Env) (root : Json) : ∀ j t, j.noRef → SameModes env root j t := by
  apply lexInd
  intro j t ihj iht hn target loc segs st
  have hitem : ∀ js, j = .arr js → ∀ t', ∀ j' ∈ js, SameModes env root j' t' := by
    rintro js rfl t' j' hj'
    exact ihj j' (size_item hj') t' (noRef_item hn hj')
  have hfield : ∀ ms, j = .obj ms → ∀ t', ∀ p ∈ ms, SameModes env root p.2 t' := by
    rintro ms rfl t' p hp
    exact ihj p.2 (size_field hp) t' (noRef_field hn hp)
  cases t with
  | prim p =>
    rw [deser_prim, deser_prim]
    cases desPrim env p j with
    | ub => intro ok a st' ha; cases ha
    | reject e => exact SameEnd.reject _ _ _ _ _
    | ok pv => intro ok a st' ha; cases ha; exact ⟨rfl, rfl⟩
  | vec t =>
    rw [deser_vec, deser_vec]
    cases j with
    | arr js => exact (runSame_modes env t root js (hitem js rfl t) _ _ _ _).map
    | _ => exact SameEnd.reject _ _ _ _ _
  | arr n t =>
    rw [deser_arr, deser_arr]
    cases j with
    | arr js =>
      simp only
      split
      · have h := runSame_modes env t root js (hitem js rfl t) 0 loc segs st
        cases hp : runSame env t true (js.map (deser env root)) 0 loc segs st with
        | ub => intro ok a st' ha; cases ha
        | threw s e => intro ok a st' ha; cases ha
        | done ok vs st1 =>
          obtain ⟨rfl, h2⟩ := h ok vs st1 hp
          rw [h2]
          intro ok a st' ha
          cases ha
          exact ⟨rfl, rfl⟩
      · exact SameEnd.reject _ _ _ _ _
    | _ => exact SameEnd.reject _ _ _ _ _
  | set t =>
    rw [deser_set, deser_set]
    cases j with
    | arr js => exact (runSame_modes env t root js (hitem js rfl t) _ _ _ _).map
    | _ => exact SameEnd.reject _ _ _ _ _
  | map o t =>
    rw [deser_map, deser_map]
    cases j with
    | obj ms => exact (runEntries_modes env t root ms (hfield ms rfl t) _ _ _ _).map
    | _ => exact SameEnd.reject _ _ _ _ _
  | dict t =>
    rw [deser_dict, deser_dict]
    cases j with
    | arr js => exact (runSame_modes env _ root js (hitem js rfl _) _ _ _ _).map
    | _ => exact SameEnd.reject _ _ _ _ _
  | tuple ts =>
    rw [deser_tuple, deser_tuple]
    cases j with
    | arr js =>
      simp only
      split
      · exact (runTuple_modes env root js ts (fun j hj t _ => hitem js rfl t j hj) _ _ _ _ _).map
      · exact SameEnd.reject _ _ _ _ _
    | _ => exact SameEnd.reject _ _ _ _ _
  | variant ts =>
    rw [deser_variant, deser_variant]
    cases tryAll env root j ts 0 loc segs st with
    | ub => intro ok a st' ha; cases ha
    | threw s e => intro ok a st' ha; cases ha
    | done ok v st1 =>
      cases ok with
      | true => intro ok a st' ha; cases ha; exact ⟨rfl, rfl⟩
      | false => exact SameEnd.reject _ _ _ _ _
  | cls c =>
    rw [deser_cls, deser_cls]
    cases j with
    | obj ms => exact (runMembers_modes env root ms loc segs _ (fun p hp m _ => hfield ms rfl m.ty p hp) _ _).map
    | _ => exact SameEnd.reject _ _ _ _ _
  | uptr t =>
    rw [deser_uptr, deser_uptr]
    have h := iht t (by simp) hn (env.ctor t) loc segs st
    cases hp : deser env root j true t (env.ctor t) loc segs st with
    | ub => intro ok a st' ha; cases ha
    | threw s e => intro ok a st' ha; cases ha
    | done ok vs st1 =>
      obtain ⟨rfl, h2⟩ := h ok vs st1 hp
      rw [h2]
      intro ok a st' ha
      cases ha
      exact ⟨rfl, rfl⟩
  | sptr t =>
    rw [deser_sptr, deser_sptr, noRef_refMember hn]
    simp only
    have h := iht t (by simp) hn (env.ctor t) loc segs { st with next := st.next + 1 }
    cases hp : deser env root j true t (env.ctor t) loc segs { st with next := st.next + 1 } with
    | ub => intro ok a st' ha; cases ha
    | threw s e => intro ok a st' ha; cases ha
    | done ok vs st1 =>
      obtain ⟨rfl, h2⟩ := h ok vs st1 hp
      rw [h2]
      intro ok a st' ha
      cases ha
      exact ⟨rfl, rfl⟩

/-! ## The clock -/

mutual
theorem calm_lower (env : Env) : ∀ j, Calm env.lower j ↔ Calm env j
  | .null | .bool _ | .num _ | .str _ => Iff.rfl
  | .arr js => by simp only [Calm]; exact calmAll_lower env js
  | .obj ms => by simp only [Calm]; exact calmFields_lower env ms

theorem calmAll_lower (env : Env) : ∀ js, CalmAll env.lower js ↔ CalmAll env js
  | [] => Iff.rfl
  | j :: js => by simp only [CalmAll, calm_lower env j, calmAll_lower env js]

theorem calmFields_lower (env : Env) : ∀ ms, CalmFields env.lower ms ↔ CalmFields env ms
  | [] => Iff.rfl
  | (_, j) :: ms => by simp only [CalmFields, calm_lower env j, calmFields_lower env ms]
end

end Verif.Core
