import Verif.ReadMore

/-!
# Exactly which documents are refused

`Refused env exc t j`: the reader refuses the document, `exc` tells the throwing variant from the boolean one. It is
`Fails` (`ReadSpec`) except that a class is judged by its last member that matters in the boolean variant, and that
variants try their alternatives in the boolean variant.
-/

namespace Verif.Core
open Verif.Numeric Verif.EnumConv

/-- Which documents are refused. -/
inductive Refused (env : Env) : Bool → Ty → Json → Prop
  | prim (exc : Bool) (p : Prim) (j : Json) : (∀ pv, ¬ LeafReads env p j pv) → Refused env exc (.prim p) j
  | array (exc : Bool) (t : Ty) (j : Json) : t.wantsArray = true → (∀ js, j ≠ .arr js) → Refused env exc t j
  | object (exc : Bool) (t : Ty) (j : Json) : t.wantsObject = true → (∀ ms, j ≠ .obj ms) → Refused env exc t j
  | vec (exc : Bool) (t : Ty) (js : List Json) (j : Json) : j ∈ js → Refused env exc t j → Refused env exc (.vec t) (.arr js)
  | arr (exc : Bool) (n : Nat) (t : Ty) (js : List Json) (j : Json) : j ∈ js → Refused env exc t j → Refused env exc (.arr n t) (.arr js)
  | arrLength (exc : Bool) (n : Nat) (t : Ty) (js : List Json) : js.length ≠ n → Refused env exc (.arr n t) (.arr js)
  | set (exc : Bool) (t : Ty) (js : List Json) (j : Json) : j ∈ js → Refused env exc t j → Refused env exc (.set t) (.arr js)
  | map (exc : Bool) (o : Bool) (t : Ty) (ms : List (Str × Json)) (p : Str × Json) : p ∈ ms → Refused env exc t p.2 →
      Refused env exc (.map o t) (.obj ms)
  | dict (exc : Bool) (t : Ty) (js : List Json) (j : Json) : j ∈ js → Refused env exc (.tuple [.prim .str, t]) j →
      Refused env exc (.dict t) (.arr js)
  | tuple (exc : Bool) (ts : List Ty) (js : List Json) (i : Nat) (t : Ty) (j : Json) : ts[i]? = some t → js[i]? = some j →
      Refused env exc t j → Refused env exc (.tuple ts) (.arr js)
  | tupleLength (exc : Bool) (ts : List Ty) (js : List Json) : js.length ≠ ts.length → Refused env exc (.tuple ts) (.arr js)
  | variant (exc : Bool) (ts : List Ty) (j : Json) : (∀ t, t ∈ ts → Refused env false t j) → Refused env exc (.variant ts) j
  | member (c : Nat) (ms : List (Str × Json)) (m : Member) (i : Nat) (j : Json) : m ∈ env.members c →
      findMember m.name ms = some (i, j) → Refused env true m.ty j → Refused env true (.cls c) (.obj ms)
  | missing (c : Nat) (ms : List (Str × Json)) (m : Member) : m ∈ env.members c → findMember m.name ms = none → m.kind = .required →
      Refused env true (.cls c) (.obj ms)
  | last (c : Nat) (ms : List (Str × Json)) (pre : List Member) (m : Member) (post : List Member) (i : Nat) (j : Json) :
      env.members c = pre ++ m :: post → (∀ m', m' ∈ post → Irrelevant ms m') → findMember m.name ms = some (i, j) →
      Refused env false m.ty j → Refused env false (.cls c) (.obj ms)
  | lastMissing (c : Nat) (ms : List (Str × Json)) (pre : List Member) (m : Member) (post : List Member) :
      env.members c = pre ++ m :: post → (∀ m', m' ∈ post → Irrelevant ms m') → findMember m.name ms = none → m.kind = .required →
      Refused env false (.cls c) (.obj ms)
  | uptr (exc : Bool) (t : Ty) (j : Json) : Refused env exc t j → Refused env exc (.uptr t) j

/-- The reader refuses the document and it is one of those, or accepts it and it is not. -/
def Judged (env : Env) (exc : Bool) (j : Json) (t : Ty) : Prop :=
  (Refused env exc t j ∧ ∀ tg sg, (pd env j exc t tg sg).Bad exc) ∨ (¬ Refused env exc t j ∧ ∀ tg sg, (pd env j exc t tg sg).Accepts)

theorem PRes.Bad.done {α : Type} {r : PRes α} (h : r.Bad false) : ∃ a, r = .done false a := by
  cases r with
  | ub => exact h.elim
  | threw s e => cases h
  | done ok v => obtain ⟨_, rfl⟩ := h; exact ⟨v, rfl⟩

theorem pSame_judged (env : Env) (t : Ty) (exc : Bool) (js : List Json) (h : ∀ j ∈ js, Judged env exc j t) :
    ((∃ j ∈ js, Refused env exc t j) ∧ ∀ k sg, (pSame env t exc js k sg).Bad exc) ∨
    ((∀ j ∈ js, ¬ Refused env exc t j) ∧ ∀ k sg, (pSame env t exc js k sg).Accepts) := by
  induction js with
  | nil => exact .inr ⟨by simp, fun k sg => ⟨_, rfl⟩⟩
  | cons j js ih =>
    rcases h j (by simp) with ⟨h1, h2⟩ | ⟨h1, h2⟩
    · exact .inl ⟨⟨j, by simp, h1⟩, fun k sg => by
        have h := h2 (env.fresh t) (.index k :: sg)
        simp only [pSame]
        revert h
        cases pd env j exc t (env.fresh t) (.index k :: sg) with
        | ub => exact id
        | threw s e => exact id
        | done ok v => rintro ⟨h, rfl⟩; exact ⟨h, rfl⟩⟩
    · rcases ih (fun j hj => h j (by simp [hj])) with ⟨⟨j', hj', h3⟩, h4⟩ | ⟨h3, h4⟩
      · refine .inl ⟨⟨j', by simp [hj'], h3⟩, fun k sg => ?_⟩
        obtain ⟨v, hv⟩ := h2 (env.fresh t) (.index k :: sg)
        simp only [pSame, hv]
        exact (h4 _ _).map
      · refine .inr ⟨fun x hx => (List.mem_cons.1 hx).elim (fun e => e ▸ h1) (h3 x), fun k sg => ?_⟩
        obtain ⟨v, hv⟩ := h2 (env.fresh t) (.index k :: sg)
        simp only [pSame, hv]
        exact (h4 _ _).map

theorem pEntries_judged (env : Env) (t : Ty) (exc : Bool) (ms : List (Str × Json)) (h : ∀ p ∈ ms, Judged env exc p.2 t) :
    ((∃ p ∈ ms, Refused env exc t p.2) ∧ ∀ sg, (pEntries env t exc ms sg).Bad exc) ∨
    ((∀ p ∈ ms, ¬ Refused env exc t p.2) ∧ ∀ sg, (pEntries env t exc ms sg).Accepts) := by
  induction ms with
  | nil => exact .inr ⟨by simp, fun sg => ⟨_, rfl⟩⟩
  | cons p ms ih =>
    obtain ⟨key, j⟩ := p
    rcases h (key, j) (by simp) with ⟨h1, h2⟩ | ⟨h1, h2⟩
    · exact .inl ⟨⟨(key, j), by simp, h1⟩, fun sg => by
        have h := h2 (env.fresh t) (Seg.name (cstr key) :: sg)
        simp only [pEntries]
        revert h
        cases pd env j exc t (env.fresh t) (Seg.name (cstr key) :: sg) with
        | ub => exact id
        | threw s e => exact id
        | done ok v => rintro ⟨h, rfl⟩; exact ⟨h, rfl⟩⟩
    · rcases ih (fun j hj => h j (by simp [hj])) with ⟨⟨p', hp', h3⟩, h4⟩ | ⟨h3, h4⟩
      · refine .inl ⟨⟨p', by simp [hp'], h3⟩, fun sg => ?_⟩
        obtain ⟨v, hv⟩ := h2 (env.fresh t) (Seg.name (cstr key) :: sg)
        simp only [pEntries, hv]
        exact (h4 _).map
      · refine .inr ⟨fun x hx => (List.mem_cons.1 hx).elim (fun e => e ▸ h1) (h3 x), fun sg => ?_⟩
        obtain ⟨v, hv⟩ := h2 (env.fresh t) (Seg.name (cstr key) :: sg)
        simp only [pEntries, hv]
        exact (h4 _).map

theorem pTuple_judged (env : Env) (exc : Bool) (js : List Json) : ∀ ts : List Ty, js.length = ts.length → (∀ j ∈ js, ∀ t ∈ ts, Judged env exc j t) →
    ((∃ (i : Nat) (t : Ty) (j : Json), ts[i]? = some t ∧ js[i]? = some j ∧ Refused env exc t j) ∧ ∀ tgs k sg, (pTuple env exc js ts tgs k sg).Bad exc) ∨
    ((∀ (i : Nat) (t : Ty) (j : Json), ts[i]? = some t → js[i]? = some j → ¬ Refused env exc t j) ∧ ∀ tgs k sg, (pTuple env exc js ts tgs k sg).Accepts) := by
  induction js with
  | nil =>
    intro ts hl h
    cases ts with
    | nil => exact .inr ⟨by simp, fun tgs k sg => ⟨_, rfl⟩⟩
    | cons t ts => simp at hl
  | cons j js ih =>
    intro ts hl h
    cases ts with
    | nil => simp at hl
    | cons t ts =>
      rcases h j (by simp) t (by simp) with ⟨h1, h2⟩ | ⟨h1, h2⟩
      · exact .inl ⟨⟨0, t, j, rfl, rfl, h1⟩, fun tgs k sg => by
        have h := h2 (tgs.headD (env.fresh t)) (.index k :: sg)
        simp only [pTuple]
        revert h
        cases pd env j exc t (tgs.headD (env.fresh t)) (.index k :: sg) with
        | ub => exact id
        | threw s e => exact id
        | done ok v => rintro ⟨h, rfl⟩; exact ⟨h, rfl⟩⟩
      · rcases ih ts (by simpa using hl) (fun j hj t ht => h j (by simp [hj]) t (by simp [ht])) with ⟨⟨i, t', j', h3, h4, h5⟩, h6⟩ | ⟨h3, h4⟩
        · refine .inl ⟨⟨i + 1, t', j', by simpa using h3, by simpa using h4, h5⟩, fun tgs k sg => ?_⟩
          obtain ⟨v, hv⟩ := h2 (tgs.headD (env.fresh t)) (.index k :: sg)
          simp only [pTuple, hv]
          exact (h6 _ _ _).map
        · refine .inr ⟨fun i t' j' e1 e2 => ?_, fun tgs k sg => ?_⟩
          · cases i with
            | zero => simp at e1 e2; subst e1; subst e2; exact h1
            | succ i => exact h3 i t' j' (by simpa using e1) (by simpa using e2)
          · obtain ⟨v, hv⟩ := h2 (tgs.headD (env.fresh t)) (.index k :: sg)
            simp only [pTuple, hv]
            exact (h4 _ _ _).map

theorem pAll_judged (env : Env) (j : Json) (ts : List Ty) (h : ∀ t ∈ ts, Judged env false j t) :
    ((∀ t ∈ ts, Refused env false t j) ∧ ∀ n sg, ∃ v, pAll env j ts n sg = .done false v) ∨
    (∃ (i : Nat) (t : Ty), ts[i]? = some t ∧ ¬ Refused env false t j ∧ (∀ (k : Nat) (t' : Ty), k < i → ts[k]? = some t' → Refused env false t' j) ∧
      ∀ n sg, ∃ v, pd env j false t (env.fresh t) sg = .done true v ∧ pAll env j ts n sg = .done true (.alt (n + i) v)) := by
  induction ts with
  | nil => exact .inl ⟨by simp, fun n sg => ⟨_, rfl⟩⟩
  | cons t ts ih =>
    rcases h t (by simp) with ⟨h1, h2⟩ | ⟨h1, h2⟩
    · rcases ih (fun t ht => h t (by simp [ht])) with ⟨h3, h4⟩ | ⟨i, t', h3, h4, h5, h6⟩
      · refine .inl ⟨fun x hx => (List.mem_cons.1 hx).elim (fun e => e ▸ h1) (h3 x), fun n sg => ?_⟩
        obtain ⟨v, hv⟩ := (h2 (env.fresh t) sg).done
        simp only [pAll, hv]
        exact h4 _ _
      · refine .inr ⟨i + 1, t', by simpa using h3, h4, fun k t'' hk hkt => ?_, fun n sg => ?_⟩
        · cases k with
          | zero => simp at hkt; subst hkt; exact h1
          | succ k => exact h5 k t'' (by omega) (by simpa using hkt)
        · obtain ⟨v, hv⟩ := (h2 (env.fresh t) sg).done
          obtain ⟨w, hw1, hw⟩ := h6 (n + 1) sg
          simp only [pAll, hv]
          exact ⟨w, hw1, by rw [hw]; congr 2; omega⟩
    · refine .inr ⟨0, t, rfl, h1, fun k t' hk => by omega, fun n sg => ?_⟩
      obtain ⟨v, hv⟩ := h2 (env.fresh t) sg
      simp only [pAll, hv]
      exact ⟨v, rfl, rfl⟩

/-- The last member that matters, if there is one. -/
theorem last_relevant (ms : List (Str × Json)) (l : List Member) :
    (∀ m ∈ l, Irrelevant ms m) ∨ ∃ pre m post, l = pre ++ m :: post ∧ ¬ Irrelevant ms m ∧ ∀ m' ∈ post, Irrelevant ms m' := by
  induction l with
  | nil => exact .inl (by simp)
  | cons m l ih =>
    rcases ih with h | ⟨pre, m', post, rfl, h2, h3⟩
    · by_cases hm : Irrelevant ms m
      · exact .inl fun x hx => (List.mem_cons.1 hx).elim (fun e => e ▸ hm) (h x)
      · exact .inr ⟨[], m, l, rfl, hm, h⟩
    · exact .inr ⟨m :: pre, m', post, rfl, h2, h3⟩

/-- There is only one. -/
theorem last_unique (ms : List (Str × Json)) : ∀ (pre pre' : List Member) (m m' : Member) (post post' : List Member),
    pre ++ m :: post = pre' ++ m' :: post' → ¬ Irrelevant ms m → ¬ Irrelevant ms m' → (∀ x ∈ post, Irrelevant ms x) → (∀ x ∈ post', Irrelevant ms x) →
    m = m' := by
  intro pre
  induction pre with
  | nil =>
    intro pre' m m' post post' he hm hm' hp hp'
    cases pre' with
    | nil => exact (List.cons.inj he).1
    | cons a pre' =>
      have : m' ∈ post := by rw [(List.cons.inj he).2]; simp
      exact absurd (hp m' this) hm'
  | cons a pre ih =>
    intro pre' m m' post post' he hm hm' hp hp'
    cases pre' with
    | nil =>
      have : m ∈ post' := by rw [← (List.cons.inj he).2]; simp
      exact absurd (hp' m this) hm
    | cons b pre' => exact ih pre' m m' post post' (List.cons.inj he).2 hm hm' hp hp'

theorem relevant_found {ms : List (Str × Json)} {m : Member} {i : Nat} {j : Json} (h : findMember m.name ms = some (i, j)) : ¬ Irrelevant ms m := by
  rintro ⟨h1, _⟩
  rw [h] at h1
  cases h1

theorem relevant_required {ms : List (Str × Json)} {m : Member} (h : m.kind = .required) : ¬ Irrelevant ms m := fun ⟨_, h2⟩ => h2 h

theorem Judged.returns {env : Env} {j : Json} {t : Ty} (h : Judged env false j t) (tg : Val) (sg : List Seg) : (pd env j false t tg sg).Returns := by
  rcases h with ⟨_, h⟩ | ⟨_, h⟩
  · obtain ⟨v, hv⟩ := (h tg sg).done; exact ⟨_, _, hv⟩
  · obtain ⟨v, hv⟩ := h tg sg; exact ⟨_, _, hv⟩

theorem cls_judged_bool (env : Env) (c : Nat) (ms : List (Str × Json))
    (h : ∀ m ∈ env.members c, ∀ i j, findMember m.name ms = some (i, j) → Judged env false j m.ty) :
    (Refused env false (.cls c) (.obj ms) ∧ ∀ tgs sg, (pMembers env false ms sg (env.members c) tgs true).Bad false) ∨
    (¬ Refused env false (.cls c) (.obj ms) ∧ ∀ tgs sg, (pMembers env false ms sg (env.members c) tgs true).Accepts) := by
  rcases last_relevant ms (env.members c) with hall | ⟨pre, m, post, he, hm, hpost⟩
  · refine .inr ⟨fun hr => ?_, fun tgs sg => ?_⟩
    · cases hr with
      | array _ _ _ h => cases h
      | object _ _ _ _ h => exact h ms rfl
      | last _ _ pre m post i j he hp hf => exact relevant_found hf (hall m (by rw [he]; simp))
      | lastMissing _ _ pre m post he hp hf hk => exact relevant_required hk (hall m (by rw [he]; simp))
    · obtain ⟨vs, hvs⟩ := pMembers_irrelevant env false ms sg (env.members c) hall tgs true
      exact ⟨vs, hvs⟩
  · have hmem : m ∈ env.members c := by rw [he]; simp
    have hpre : ∀ m' ∈ pre, ∀ i j, findMember m'.name ms = some (i, j) → ∀ tg sg, (pd env j false m'.ty tg sg).Returns :=
      fun m' hm' i j hf tg sg => (h m' (by rw [he]; simp [hm']) i j hf).returns tg sg
    cases hf : findMember m.name ms with
    | none =>
      have hk : m.kind = .required := Classical.byContradiction fun hk => hm ⟨hf, hk⟩
      refine .inl ⟨.lastMissing c ms pre m post he hpost hf hk, fun tgs sg => ?_⟩
      obtain ⟨vs, hvs⟩ := pMembers_last env ms sg pre m post hpre hpost false (.inr ⟨hf, hk, rfl⟩) tgs true
      rw [he, hvs]
      exact ⟨rfl, rfl⟩
    | some q =>
      obtain ⟨i, j⟩ := q
      rcases h m hmem i j hf with ⟨h1, h2⟩ | ⟨h1, h2⟩
      · refine .inl ⟨.last c ms pre m post i j he hpost hf h1, fun tgs sg => ?_⟩
        obtain ⟨vs, hvs⟩ := pMembers_last env ms sg pre m post hpre hpost false (.inl ⟨i, j, hf, fun tg sg => (h2 tg sg).done⟩) tgs true
        rw [he, hvs]
        exact ⟨rfl, rfl⟩
      · refine .inr ⟨fun hr => ?_, fun tgs sg => ?_⟩
        · cases hr with
          | array _ _ _ h => cases h
          | object _ _ _ _ h => exact h ms rfl
          | last _ _ pre' m' post' i' j' he' hp' hf' hr' =>
            have := last_unique ms pre pre' m m' post post' (he ▸ he') hm (relevant_found hf') hpost hp'
            subst this
            rw [hf] at hf'
            cases hf'
            exact h1 hr'
          | lastMissing _ _ pre' m' post' he' hp' hf' hk' =>
            have := last_unique ms pre pre' m m' post post' (he ▸ he') hm (relevant_required hk') hpost hp'
            subst this
            rw [hf] at hf'
            cases hf'
        · obtain ⟨vs, hvs⟩ := pMembers_last env ms sg pre m post hpre hpost true (.inl ⟨i, j, hf, fun tg sg => h2 tg sg⟩) tgs true
          rw [he, hvs]
          exact ⟨_, rfl⟩

theorem members_judged_throw (env : Env) (ms : List (Str × Json)) (l : List Member)
    (h : ∀ m ∈ l, ∀ i j, findMember m.name ms = some (i, j) → Judged env true j m.ty) :
    ((∃ m ∈ l, (∃ i j, findMember m.name ms = some (i, j) ∧ Refused env true m.ty j) ∨ (findMember m.name ms = none ∧ m.kind = .required)) ∧
      ∀ tgs sg res, (pMembers env true ms sg l tgs res).Bad true) ∨
    ((∀ m ∈ l, (∀ i j, findMember m.name ms = some (i, j) → ¬ Refused env true m.ty j) ∧ (findMember m.name ms = none → m.kind ≠ .required)) ∧
      ∀ tgs sg, (pMembers env true ms sg l tgs true).Accepts) := by
  induction l with
  | nil => exact .inr ⟨by simp, fun tgs sg => ⟨_, rfl⟩⟩
  | cons m l ih =>
    have ih := ih fun m' hm' => h m' (List.mem_cons_of_mem _ hm')
    cases hf : findMember m.name ms with
    | none =>
      cases hk : m.kind with
      | required => exact .inl ⟨⟨m, by simp, .inr ⟨hf, hk⟩⟩, fun tgs sg res => by simp only [pMembers, hf, hk]; exact rfl⟩
      | optional =>
        rcases ih with ⟨⟨m', hm', h1⟩, h2⟩ | ⟨h1, h2⟩
        · exact .inl ⟨⟨m', by simp [hm'], h1⟩, fun tgs sg res => by simp only [pMembers, hf, hk]; exact (h2 _ _ _).map⟩
        · exact .inr ⟨fun x hx => (List.mem_cons.1 hx).elim (fun e => e ▸ ⟨by simp [hf], by simp [hk]⟩) (h1 x),
            fun tgs sg => by simp only [pMembers, hf, hk]; exact (h2 _ _).map⟩
      | default =>
        rcases ih with ⟨⟨m', hm', h1⟩, h2⟩ | ⟨h1, h2⟩
        · exact .inl ⟨⟨m', by simp [hm'], h1⟩, fun tgs sg res => by simp only [pMembers, hf, hk]; exact (h2 _ _ _).map⟩
        · exact .inr ⟨fun x hx => (List.mem_cons.1 hx).elim (fun e => e ▸ ⟨by simp [hf], by simp [hk]⟩) (h1 x),
            fun tgs sg => by simp only [pMembers, hf, hk]; exact (h2 _ _).map⟩
    | some q =>
      obtain ⟨i, j⟩ := q
      rcases h m (by simp) i j hf with ⟨h1, h2⟩ | ⟨h1, h2⟩
      · refine .inl ⟨⟨m, by simp, .inl ⟨i, j, hf, h1⟩⟩, fun tgs sg res => ?_⟩
        have h2 := h2 (if m.kind = .optional then env.fresh m.ty else tgs.headD (env.fresh m.ty)) (Seg.name (cstr m.name) :: sg)
        simp only [pMembers, hf]
        revert h2
        cases pd env j true m.ty (if m.kind = .optional then env.fresh m.ty else tgs.headD (env.fresh m.ty)) (Seg.name (cstr m.name) :: sg) with
        | ub => exact id
        | threw s e => exact id
        | done ok v => rintro ⟨h, _⟩; cases h
      · rcases ih with ⟨⟨m', hm', h3⟩, h4⟩ | ⟨h3, h4⟩
        · refine .inl ⟨⟨m', by simp [hm'], h3⟩, fun tgs sg res => ?_⟩
          obtain ⟨v, hv⟩ := h2 (if m.kind = .optional then env.fresh m.ty else tgs.headD (env.fresh m.ty)) (Seg.name (cstr m.name) :: sg)
          simp only [pMembers, hf, hv]
          exact (h4 _ _ _).map
        · refine .inr ⟨fun x hx => (List.mem_cons.1 hx).elim (fun e => e ▸ ⟨fun i' j' hf' => ?_, fun hn => ?_⟩) (h3 x), fun tgs sg => ?_⟩
          · rw [hf] at hf'; cases hf'; exact h1
          · rw [hf] at hn; cases hn
          · obtain ⟨v, hv⟩ := h2 (if m.kind = .optional then env.fresh m.ty else tgs.headD (env.fresh m.ty)) (Seg.name (cstr m.name) :: sg)
            simp only [pMembers, hf, hv]
            exact (h4 _ _).map

/-- Every document is judged as specified. -/
theorem judged (env : Env) (hu : env.Unshared) : ∀ j t, t.unshared = true → Calm env j → ∀ exc, Judged env exc j t := by
  apply lexInd
  intro j t ihj iht ht hc exc
  have bad_arr : t.wantsArray = true → (∀ js, j ≠ .arr js) → Judged env exc j t := by
    intro hw hj
    refine .inl ⟨.array exc t j hw hj, fun tg sg => ?_⟩
    rw [pd_not_arr env exc tg sg j t hj (by cases t <;> simp_all [Ty.wantsArray])]
    exact PRes.bad_reject ..
  have bad_obj : t.wantsObject = true → (∀ js, j ≠ .obj js) → Judged env exc j t := by
    intro hw hj
    refine .inl ⟨.object exc t j hw hj, fun tg sg => ?_⟩
    rw [pd_not_obj env exc tg sg j t hj (by cases t <;> simp_all [Ty.wantsObject])]
    exact PRes.bad_reject ..
  cases t with
  | prim p =>
    cases hp : desPrim env p j with
    | ub => exact absurd hp (desPrim_calm env p j hc)
    | reject e =>
      refine .inl ⟨.prim exc p j fun pv h => ?_, fun tg sg => ?_⟩
      · rw [← desPrim_ok, hp] at h; cases h
      · rw [pd_prim, hp]; exact PRes.bad_reject ..
    | ok pv =>
      refine .inr ⟨fun h => ?_, fun tg sg => ?_⟩
      · cases h with
        | prim _ _ _ h => exact h pv ((desPrim_ok env p j pv).1 hp)
        | array _ _ _ h => cases h
        | object _ _ _ h => cases h
      · rw [pd_prim, hp]; exact ⟨_, rfl⟩
  | vec t =>
    cases j with
    | arr js =>
      rcases pSame_judged env t exc js (fun j hj => ihj j (size_item hj) t ht (hc.item hj) exc) with ⟨⟨j, hj, h1⟩, h2⟩ | ⟨h1, h2⟩
      · exact .inl ⟨.vec exc t js j hj h1, fun tg sg => by rw [pd_vec env hu _ _ _ js t ht]; exact (h2 _ _).map⟩
      · refine .inr ⟨fun h => ?_, fun tg sg => by rw [pd_vec env hu _ _ _ js t ht]; exact (h2 _ _).map⟩
        cases h with
        | array _ _ _ _ h => exact h js rfl
        | object _ _ _ h => cases h
        | vec _ _ _ j hj h => exact h1 j hj h
    | _ => exact bad_arr rfl (by simp)
  | arr n t =>
    cases j with
    | arr js =>
      by_cases hl : js.length = n
      · rcases pSame_judged env t exc js (fun j hj => ihj j (size_item hj) t ht (hc.item hj) exc) with ⟨⟨j, hj, h1⟩, h2⟩ | ⟨h1, h2⟩
        · exact .inl ⟨.arr exc n t js j hj h1, fun tg sg => by
            rw [pd_arr env hu _ _ _ js n t ht, if_pos hl]
            have h := h2 0 sg
            revert h
            cases pSame env t exc js 0 sg with
            | ub => exact id
            | threw s e => exact id
            | done ok vs => rintro ⟨h, rfl⟩; exact ⟨h, rfl⟩⟩
        · refine .inr ⟨fun h => ?_, fun tg sg => ?_⟩
          · cases h with
            | array _ _ _ _ h => exact h js rfl
            | object _ _ _ h => cases h
            | arr _ _ _ _ j hj h => exact h1 j hj h
            | arrLength _ _ _ _ h => exact h hl
          · obtain ⟨vs, hvs⟩ := h2 0 sg
            rw [pd_arr env hu _ _ _ js n t ht, if_pos hl, hvs]
            exact ⟨_, rfl⟩
      · exact .inl ⟨.arrLength exc n t js hl, fun tg sg => by rw [pd_arr env hu _ _ _ js n t ht, if_neg hl]; exact PRes.bad_reject ..⟩
    | _ => exact bad_arr rfl (by simp)
  | set t =>
    cases j with
    | arr js =>
      rcases pSame_judged env t exc js (fun j hj => ihj j (size_item hj) t ht (hc.item hj) exc) with ⟨⟨j, hj, h1⟩, h2⟩ | ⟨h1, h2⟩
      · exact .inl ⟨.set exc t js j hj h1, fun tg sg => by rw [pd_set env hu _ _ _ js t ht]; exact (h2 _ _).map⟩
      · refine .inr ⟨fun h => ?_, fun tg sg => by rw [pd_set env hu _ _ _ js t ht]; exact (h2 _ _).map⟩
        cases h with
        | array _ _ _ _ h => exact h js rfl
        | object _ _ _ h => cases h
        | set _ _ _ j hj h => exact h1 j hj h
    | _ => exact bad_arr rfl (by simp)
  | map o t =>
    cases j with
    | obj ms =>
      rcases pEntries_judged env t exc ms (fun p hp => ihj p.2 (size_field hp) t ht (hc.field hp) exc) with ⟨⟨p, hp, h1⟩, h2⟩ | ⟨h1, h2⟩
      · exact .inl ⟨.map exc o t ms p hp h1, fun tg sg => by rw [pd_map env hu _ _ _ ms o t ht]; exact (h2 _).map⟩
      · refine .inr ⟨fun h => ?_, fun tg sg => by rw [pd_map env hu _ _ _ ms o t ht]; exact (h2 _).map⟩
        cases h with
        | array _ _ _ h => cases h
        | object _ _ _ _ h => exact h ms rfl
        | map _ _ _ _ p hp h => exact h1 p hp h
    | _ => exact bad_obj rfl (by simp)
  | dict t =>
    cases j with
    | arr js =>
      have ht' : (Ty.tuple [.prim .str, t]).unshared = true := by simpa [Ty.unshared, Ty.unshareds] using ht
      rcases pSame_judged env _ exc js (fun j hj => ihj j (size_item hj) _ ht' (hc.item hj) exc) with ⟨⟨j, hj, h1⟩, h2⟩ | ⟨h1, h2⟩
      · exact .inl ⟨.dict exc t js j hj h1, fun tg sg => by rw [pd_dict env hu _ _ _ js t ht]; exact (h2 _ _).map⟩
      · refine .inr ⟨fun h => ?_, fun tg sg => by rw [pd_dict env hu _ _ _ js t ht]; exact (h2 _ _).map⟩
        cases h with
        | array _ _ _ _ h => exact h js rfl
        | object _ _ _ h => cases h
        | dict _ _ _ j hj h => exact h1 j hj h
    | _ => exact bad_arr rfl (by simp)
  | tuple ts =>
    cases j with
    | arr js =>
      by_cases hl : js.length = ts.length
      · rcases pTuple_judged env exc js ts hl (fun j hj t htm => ihj j (size_item hj) t ((Ty.unshareds_iff ts).1 ht t htm) (hc.item hj) exc) with
          ⟨⟨i, t, j, h1, h2, h3⟩, h4⟩ | ⟨h1, h2⟩
        · exact .inl ⟨.tuple exc ts js i t j h1 h2 h3, fun tg sg => by
            rw [pd_tuple env hu _ _ _ js ts ht, if_pos hl]
            exact (h4 _ _ _).map⟩
        · refine .inr ⟨fun h => ?_, fun tg sg => by rw [pd_tuple env hu _ _ _ js ts ht, if_pos hl]; exact (h2 _ _ _).map⟩
          cases h with
          | array _ _ _ _ h => exact h js rfl
          | object _ _ _ h => cases h
          | tuple _ _ _ i t j e1 e2 h => exact h1 i t j e1 e2 h
          | tupleLength _ _ _ h => exact h hl
      · exact .inl ⟨.tupleLength exc ts js hl, fun tg sg => by rw [pd_tuple env hu _ _ _ js ts ht, if_neg hl]; exact PRes.bad_reject ..⟩
    | _ => exact bad_arr rfl (by simp)
  | variant ts =>
    rcases pAll_judged env j ts (fun t htm => iht t (size_alt htm) ((Ty.unshareds_iff ts).1 ht t htm) hc false) with ⟨h1, h2⟩ | ⟨i, t, h1, h2, h3, h4⟩
    · refine .inl ⟨.variant exc ts j h1, fun tg sg => ?_⟩
      obtain ⟨v, hv⟩ := h2 0 sg
      rw [pd_variant env hu _ _ _ j ts ht, hv]
      exact PRes.bad_reject ..
    · refine .inr ⟨fun h => ?_, fun tg sg => ?_⟩
      · cases h with
        | array _ _ _ h => cases h
        | object _ _ _ h => cases h
        | variant _ _ _ h => exact h2 (h t (List.mem_of_getElem? h1))
      · obtain ⟨v, -, hv⟩ := h4 0 sg
        rw [pd_variant env hu _ _ _ j ts ht, hv]
        exact ⟨_, rfl⟩
  | cls c =>
    cases j with
    | obj ms =>
      have hm : ∀ m ∈ env.members c, ∀ i j, findMember m.name ms = some (i, j) → Judged env exc j m.ty :=
        fun m hm i j hf => ihj j (size_field (findMember_mem hf)) m.ty (hu c m hm) (hc.field (findMember_mem hf)) exc
      cases exc with
      | false =>
        rcases cls_judged_bool env c ms hm with ⟨h1, h2⟩ | ⟨h1, h2⟩
        · exact .inl ⟨h1, fun tg sg => by rw [pd_cls env hu _ _ _ ms c]; exact (h2 _ _).map⟩
        · exact .inr ⟨h1, fun tg sg => by rw [pd_cls env hu _ _ _ ms c]; exact (h2 _ _).map⟩
      | true =>
        rcases members_judged_throw env ms (env.members c) hm with ⟨⟨m, hmem, h1⟩, h2⟩ | ⟨h1, h2⟩
        · refine .inl ⟨?_, fun tg sg => by rw [pd_cls env hu _ _ _ ms c]; exact (h2 _ _ _).map⟩
          rcases h1 with ⟨i, j, hf, hr⟩ | ⟨hf, hk⟩
          · exact .member c ms m i j hmem hf hr
          · exact .missing c ms m hmem hf hk
        · refine .inr ⟨fun h => ?_, fun tg sg => by rw [pd_cls env hu _ _ _ ms c]; exact (h2 _ _).map⟩
          cases h with
          | array _ _ _ h => cases h
          | object _ _ _ _ h => exact h ms rfl
          | member _ _ m i j hmem hf hr => exact (h1 m hmem).1 i j hf hr
          | missing _ _ m hmem hf hk => exact (h1 m hmem).2 hf hk
    | _ => exact bad_obj rfl (by simp)
  | uptr t =>
    rcases iht t (by simp) ht hc exc with ⟨h1, h2⟩ | ⟨h1, h2⟩
    · refine .inl ⟨.uptr exc t j h1, fun tg sg => ?_⟩
      have h := h2 (env.ctor t) sg
      rw [pd_uptr env hu _ _ _ j t ht]
      revert h
      cases pd env j exc t (env.ctor t) sg with
      | ub => exact id
      | threw s e => exact id
      | done ok vs => rintro ⟨h, rfl⟩; exact ⟨h, rfl⟩
    · refine .inr ⟨fun h => ?_, fun tg sg => ?_⟩
      · cases h with
        | array _ _ _ h => cases h
        | object _ _ _ h => cases h
        | uptr _ _ _ h => exact h1 h
      · obtain ⟨v, hv⟩ := h2 (env.ctor t) sg
        rw [pd_uptr env hu _ _ _ j t ht, hv]
        exact ⟨_, rfl⟩
  | sptr t => simp [Ty.unshared] at ht

/-- What the boolean variant refuses, the throwing variant refuses. -/
theorem Refused.throws {env : Env} {exc : Bool} {t : Ty} {j : Json} (h : Refused env exc t j) : Refused env true t j := by
  induction h with
  | prim exc p j h => exact .prim _ p j h
  | array exc t j h1 h2 => exact .array _ t j h1 h2
  | object exc t j h1 h2 => exact .object _ t j h1 h2
  | vec exc t js j hj _ ih => exact .vec _ t js j hj ih
  | arr exc n t js j hj _ ih => exact .arr _ n t js j hj ih
  | arrLength exc n t js h => exact .arrLength _ n t js h
  | set exc t js j hj _ ih => exact .set _ t js j hj ih
  | map exc o t ms p hp _ ih => exact .map _ o t ms p hp ih
  | dict exc t js j hj _ ih => exact .dict _ t js j hj ih
  | tuple exc ts js i t j h1 h2 _ ih => exact .tuple _ ts js i t j h1 h2 ih
  | tupleLength exc ts js h => exact .tupleLength _ ts js h
  | variant exc ts j h _ => exact .variant _ ts j h
  | member c ms m i j hm hf _ ih => exact .member c ms m i j hm hf ih
  | missing c ms m hm hf hk => exact .missing c ms m hm hf hk
  | last c ms pre m post i j he _ hf _ ih => exact .member c ms m i j (by rw [he]; simp) hf ih
  | lastMissing c ms pre m post he _ hf hk => exact .missing c ms m (by rw [he]; simp) hf hk
  | uptr exc t j _ ih => exact .uptr _ t j ih

/-- Only documents that do not conform are refused. -/
theorem Refused.fails {env : Env} {exc : Bool} {t : Ty} {j : Json} (h : Refused env exc t j) : Fails env t j := by
  induction h with
  | prim exc p j h => exact .prim p j h
  | array exc t j h1 h2 => exact .array t j h1 h2
  | object exc t j h1 h2 => exact .object t j h1 h2
  | vec exc t js j hj _ ih => exact .vec t js j hj ih
  | arr exc n t js j hj _ ih => exact .arr n t js j hj ih
  | arrLength exc n t js h => exact .arrLength n t js h
  | set exc t js j hj _ ih => exact .set t js j hj ih
  | map exc o t ms p hp _ ih => exact .map o t ms p hp ih
  | dict exc t js j hj _ ih => exact .dict t js j hj ih
  | tuple exc ts js i t j h1 h2 _ ih => exact .tuple ts js i t j h1 h2 ih
  | tupleLength exc ts js h => exact .tupleLength ts js h
  | variant exc ts j _ ih => exact .variant ts j ih
  | member c ms m i j hm hf _ ih => exact .member c ms m i j hm hf ih
  | missing c ms m hm hf hk => exact .missing c ms m hm hf hk
  | last c ms pre m post i j he _ hf _ ih => exact .member c ms m i j (by rw [he]; simp) hf ih
  | lastMissing c ms pre m post he _ hf hk => exact .missing c ms m (by rw [he]; simp) hf hk
  | uptr exc t j _ ih => exact .uptr t j ih

end Verif.Core
