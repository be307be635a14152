import Verif.ReadExact
import Verif.ReadShared

/-!
# The first failure

Which of the defects of a document the throwing reader reports, and where. `FirstBad env t j path e`: reading the
document in order (arrays and maps by position, classes in the order in which their members are declared), the first
thing that cannot be read is at `path`, for the reason `e`.
-/

namespace Verif.Core
open Verif.Numeric Verif.EnumConv

/-- The reason of the first failure and its position, from the root. -/
inductive FirstBad (env : Env) : Ty → Json → List Seg → Err → Prop
  | leaf (p : Prim) (j : Json) (e : Err) : LeafReason env p j e → FirstBad env (.prim p) j [] e
  | array (t : Ty) (j : Json) : t.wantsArray = true → (∀ js, j ≠ .arr js) → FirstBad env t j [] .expectedArray
  | object (t : Ty) (j : Json) : t.wantsObject = true → (∀ ms, j ≠ .obj ms) → FirstBad env t j [] .expectedObject
  | vec (t : Ty) (pre : List Json) (j : Json) (post : List Json) (rel : List Seg) (e : Err) : (∀ x, x ∈ pre → ¬ Refused env true t x) →
      FirstBad env t j rel e → FirstBad env (.vec t) (.arr (pre ++ j :: post)) (.index pre.length :: rel) e
  | set (t : Ty) (pre : List Json) (j : Json) (post : List Json) (rel : List Seg) (e : Err) : (∀ x, x ∈ pre → ¬ Refused env true t x) →
      FirstBad env t j rel e → FirstBad env (.set t) (.arr (pre ++ j :: post)) (.index pre.length :: rel) e
  | dict (t : Ty) (pre : List Json) (j : Json) (post : List Json) (rel : List Seg) (e : Err) :
      (∀ x, x ∈ pre → ¬ Refused env true (.tuple [.prim .str, t]) x) → FirstBad env (.tuple [.prim .str, t]) j rel e →
      FirstBad env (.dict t) (.arr (pre ++ j :: post)) (.index pre.length :: rel) e
  | arr (n : Nat) (t : Ty) (pre : List Json) (j : Json) (post : List Json) (rel : List Seg) (e : Err) : (pre ++ j :: post).length = n →
      (∀ x, x ∈ pre → ¬ Refused env true t x) → FirstBad env t j rel e →
      FirstBad env (.arr n t) (.arr (pre ++ j :: post)) (.index pre.length :: rel) e
  | arrLength (n : Nat) (t : Ty) (js : List Json) : js.length ≠ n → FirstBad env (.arr n t) (.arr js) [] (.sizeMismatch n js.length)
  | tuple (ts : List Ty) (js : List Json) (i : Nat) (t : Ty) (j : Json) (rel : List Seg) (e : Err) : js.length = ts.length →
      ts[i]? = some t → js[i]? = some j → (∀ (k : Nat) (t' : Ty) (j' : Json), k < i → ts[k]? = some t' → js[k]? = some j' → ¬ Refused env true t' j') →
      FirstBad env t j rel e → FirstBad env (.tuple ts) (.arr js) (.index i :: rel) e
  | tupleLength (ts : List Ty) (js : List Json) : js.length ≠ ts.length →
      FirstBad env (.tuple ts) (.arr js) [] (.sizeMismatch ts.length js.length)
  | map (o : Bool) (t : Ty) (pre : List (Str × Json)) (key : Str) (j : Json) (post : List (Str × Json)) (rel : List Seg) (e : Err) :
      (∀ p, p ∈ pre → ¬ Refused env true t p.2) → FirstBad env t j rel e →
      FirstBad env (.map o t) (.obj (pre ++ (key, j) :: post)) (Seg.name (cstr key) :: rel) e
  | variant (ts : List Ty) (j : Json) : (∀ t, t ∈ ts → Refused env false t j) → FirstBad env (.variant ts) j [] .noAlternative
  | member (c : Nat) (ms : List (Str × Json)) (pre : List Member) (m : Member) (post : List Member) (i : Nat) (j : Json) (rel : List Seg) (e : Err) :
      env.members c = pre ++ m :: post →
      (∀ m', m' ∈ pre → (∀ i' j', findMember m'.name ms = some (i', j') → ¬ Refused env true m'.ty j') ∧ (findMember m'.name ms = none → m'.kind ≠ .required)) →
      findMember m.name ms = some (i, j) → FirstBad env m.ty j rel e →
      FirstBad env (.cls c) (.obj ms) (Seg.name (cstr m.name) :: rel) e
  | missing (c : Nat) (ms : List (Str × Json)) (pre : List Member) (m : Member) (post : List Member) :
      env.members c = pre ++ m :: post →
      (∀ m', m' ∈ pre → (∀ i' j', findMember m'.name ms = some (i', j') → ¬ Refused env true m'.ty j') ∧ (findMember m'.name ms = none → m'.kind ≠ .required)) →
      findMember m.name ms = none → m.kind = .required → FirstBad env (.cls c) (.obj ms) [] (.missing m.name)
  | uptr (t : Ty) (j : Json) (rel : List Seg) (e : Err) : FirstBad env t j rel e → FirstBad env (.uptr t) j rel e

theorem Judged.fine {env : Env} {j : Json} {t : Ty} {tg : Val} {sg : List Seg} {b : Bool} {v : Val} (h : Judged env true j t)
    (hp : pd env j true t tg sg = .done b v) : ¬ Refused env true t j := by
  rcases h with ⟨_, h⟩ | ⟨h, _⟩
  · have := h tg sg
    rw [hp] at this
    cases this.1
  · exact h

theorem Judged.gives {env : Env} {j : Json} {t : Ty} (h : Judged env true j t) (hn : ¬ Refused env true t j) (tg : Val) (sg : List Seg) :
    ∃ v, pd env j true t tg sg = .done true v := by
  rcases h with ⟨h, _⟩ | ⟨_, h⟩
  · exact absurd h hn
  · exact h tg sg

/-! ## Lists of components -/

theorem pSame_first (env : Env) (t : Ty) (js : List Json) (hj : ∀ j ∈ js, Judged env true j t) (segs s : List Seg) (e : Err) :
    ∀ k, pSame env t true js k segs = .threw s e →
    ∃ pre j post, js = pre ++ j :: post ∧ (∀ x ∈ pre, ¬ Refused env true t x) ∧
      pd env j true t (env.fresh t) (.index (k + pre.length) :: segs) = .threw s e := by
  induction js with
  | nil => intro k h; cases h
  | cons j js ih =>
    intro k h
    simp only [pSame] at h
    split at h
    · cases h
    · rename_i s' e' hp
      cases h
      exact ⟨[], j, js, rfl, by simp, hp⟩
    · cases h
    · rename_i v hp
      obtain ⟨pre, j', post, rfl, h1, h2⟩ := ih (fun j h => hj j (by simp [h])) (k + 1) (PRes.map_threw h)
      refine ⟨j :: pre, j', post, rfl, ?_, ?_⟩
      · intro x hx
        rcases List.mem_cons.1 hx with rfl | hx
        · exact (hj x (by simp)).fine hp
        · exact h1 x hx
      · rw [List.length_cons, show k + (pre.length + 1) = k + 1 + pre.length by omega]
        exact h2

theorem pSame_throws (env : Env) (t : Ty) (j : Json) (post : List Json) (segs s : List Seg) (e : Err) : ∀ (pre : List Json) (k : Nat),
    (∀ x ∈ pre, ∀ tg sg, ∃ v, pd env x true t tg sg = .done true v) →
    pd env j true t (env.fresh t) (.index (k + pre.length) :: segs) = .threw s e → pSame env t true (pre ++ j :: post) k segs = .threw s e := by
  intro pre
  induction pre with
  | nil =>
    intro k _ h
    simp only [List.nil_append, pSame]
    rw [show k + ([] : List Json).length = k by simp] at h
    rw [h]
  | cons x pre ih =>
    intro k hpre h
    obtain ⟨v, hv⟩ := hpre x (by simp) (env.fresh t) (.index k :: segs)
    simp only [List.cons_append, pSame, hv]
    rw [ih (k + 1) (fun y hy => hpre y (by simp [hy])) (by rw [show k + 1 + pre.length = k + (pre.length + 1) by omega]; exact h)]
    rfl

theorem pEntries_first (env : Env) (t : Ty) (ms : List (Str × Json)) (hj : ∀ p ∈ ms, Judged env true p.2 t) (segs s : List Seg) (e : Err) :
    pEntries env t true ms segs = .threw s e →
    ∃ pre key j post, ms = pre ++ (key, j) :: post ∧ (∀ p ∈ pre, ¬ Refused env true t p.2) ∧
      pd env j true t (env.fresh t) (Seg.name (cstr key) :: segs) = .threw s e := by
  induction ms with
  | nil => intro h; cases h
  | cons p ms ih =>
    intro h
    obtain ⟨key, j⟩ := p
    simp only [pEntries] at h
    split at h
    · cases h
    · rename_i s' e' hp
      cases h
      exact ⟨[], key, j, ms, rfl, by simp, hp⟩
    · cases h
    · rename_i v hp
      obtain ⟨pre, key', j', post, rfl, h1, h2⟩ := ih (fun j h => hj j (by simp [h])) (PRes.map_threw h)
      refine ⟨(key, j) :: pre, key', j', post, rfl, ?_, h2⟩
      intro x hx
      rcases List.mem_cons.1 hx with rfl | hx
      · exact (hj (key, j) (by simp)).fine hp
      · exact h1 x hx

theorem pEntries_throws (env : Env) (t : Ty) (key : Str) (j : Json) (post : List (Str × Json)) (segs s : List Seg) (e : Err) : ∀ (pre : List (Str × Json)),
    (∀ p ∈ pre, ∀ tg sg, ∃ v, pd env p.2 true t tg sg = .done true v) →
    pd env j true t (env.fresh t) (Seg.name (cstr key) :: segs) = .threw s e → pEntries env t true (pre ++ (key, j) :: post) segs = .threw s e := by
  intro pre
  induction pre with
  | nil =>
    intro _ h
    simp only [List.nil_append, pEntries]
    rw [h]
  | cons x pre ih =>
    intro hpre h
    obtain ⟨k, x⟩ := x
    obtain ⟨v, hv⟩ := hpre (k, x) (by simp) (env.fresh t) (Seg.name (cstr k) :: segs)
    simp only [List.cons_append, pEntries, hv]
    rw [ih (fun y hy => hpre y (by simp [hy])) h]
    rfl

theorem pTuple_first (env : Env) (js : List Json) (segs s : List Seg) (e : Err) : ∀ (ts : List Ty) (targets : List Val) (k : Nat),
    (∀ j ∈ js, ∀ t ∈ ts, Judged env true j t) → pTuple env true js ts targets k segs = .threw s e →
    ∃ i j t tg, js[i]? = some j ∧ ts[i]? = some t ∧ (∀ (l : Nat) (t' : Ty) (j' : Json), l < i → ts[l]? = some t' → js[l]? = some j' → ¬ Refused env true t' j') ∧
      pd env j true t tg (.index (k + i) :: segs) = .threw s e := by
  induction js with
  | nil => intro ts targets k _ h; cases ts <;> cases h
  | cons j js ih =>
    intro ts targets k hj h
    cases ts with
    | nil => cases h
    | cons t ts =>
      simp only [pTuple] at h
      split at h
      · cases h
      · rename_i s' e' hp
        cases h
        exact ⟨0, j, t, _, rfl, rfl, by intro l t' j' hl; omega, hp⟩
      · cases h
      · rename_i v hp
        obtain ⟨i, j', t', tg, h1, h2, h3, h4⟩ := ih ts _ (k + 1) (fun j hj' t ht => hj j (by simp [hj']) t (by simp [ht])) (PRes.map_threw h)
        refine ⟨i + 1, j', t', tg, by simpa using h1, by simpa using h2, ?_, by rw [show k + (i + 1) = k + 1 + i by omega]; exact h4⟩
        intro l t'' j'' hl e1 e2
        cases l with
        | zero =>
          simp at e1 e2
          subst e1
          subst e2
          exact (hj _ (by simp) _ (by simp)).fine hp
        | succ l => exact h3 l t'' j'' (by omega) (by simpa using e1) (by simpa using e2)

theorem pTuple_throws (env : Env) (js : List Json) (segs s : List Seg) (e : Err) (t : Ty) (j : Json) : ∀ (ts : List Ty) (targets : List Val) (k i : Nat),
    ts[i]? = some t → js[i]? = some j →
    (∀ (l : Nat) (t' : Ty) (j' : Json), l < i → ts[l]? = some t' → js[l]? = some j' → ∀ tg sg, ∃ v, pd env j' true t' tg sg = .done true v) →
    (∀ tg, pd env j true t tg (.index (k + i) :: segs) = .threw s e) → pTuple env true js ts targets k segs = .threw s e := by
  induction js with
  | nil => intro ts targets k i _ h; simp at h
  | cons x js ih =>
    intro ts targets k i h1 h2 h3 h4
    cases ts with
    | nil => simp at h1
    | cons t1 ts =>
      cases i with
      | zero =>
        simp at h1 h2
        subst h1
        subst h2
        rw [Nat.add_zero] at h4
        simp only [pTuple, h4]
      | succ i =>
        obtain ⟨v, hv⟩ := h3 0 t1 x (by omega) rfl rfl (targets.headD (env.fresh t1)) (.index k :: segs)
        simp only [pTuple, hv]
        rw [ih ts targets.tail (k + 1) i (by simpa using h1) (by simpa using h2)
          (fun l t' j' hl e1 e2 => h3 (l + 1) t' j' (by omega) (by simpa using e1) (by simpa using e2))
          (by rw [show k + 1 + i = k + (i + 1) by omega]; exact h4)]
        rfl

/-- The member is not the first failure. -/
def Passes (env : Env) (ms : List (Str × Json)) (m : Member) : Prop :=
  (∀ i j, findMember m.name ms = some (i, j) → ¬ Refused env true m.ty j) ∧ (findMember m.name ms = none → m.kind ≠ .required)

theorem pMembers_first (env : Env) (fs : List (Str × Json)) (segs s : List Seg) (e : Err) (l : List Member)
    (hj : ∀ m ∈ l, ∀ i j, findMember m.name fs = some (i, j) → Judged env true j m.ty) : ∀ (targets : List Val) (res : Bool),
    pMembers env true fs segs l targets res = .threw s e →
    ∃ pre m post, l = pre ++ m :: post ∧ (∀ m' ∈ pre, Passes env fs m') ∧
      ((∃ i j tg, findMember m.name fs = some (i, j) ∧ pd env j true m.ty tg (Seg.name (cstr m.name) :: segs) = .threw s e) ∨
        (findMember m.name fs = none ∧ m.kind = .required ∧ s = segs ∧ e = .missing m.name)) := by
  induction l with
  | nil => intro targets res h; cases h
  | cons m l ih =>
    intro targets res h
    have ih := ih (fun m hm => hj m (by simp [hm]))
    have lift : Passes env fs m → (∃ pre m post, l = pre ++ m :: post ∧ (∀ m' ∈ pre, Passes env fs m') ∧
      ((∃ i j tg, findMember m.name fs = some (i, j) ∧ pd env j true m.ty tg (Seg.name (cstr m.name) :: segs) = .threw s e) ∨
        (findMember m.name fs = none ∧ m.kind = .required ∧ s = segs ∧ e = .missing m.name))) →
      ∃ pre m' post, m :: l = pre ++ m' :: post ∧ (∀ m' ∈ pre, Passes env fs m') ∧
      ((∃ i j tg, findMember m'.name fs = some (i, j) ∧ pd env j true m'.ty tg (Seg.name (cstr m'.name) :: segs) = .threw s e) ∨
        (findMember m'.name fs = none ∧ m'.kind = .required ∧ s = segs ∧ e = .missing m'.name)) := by
      rintro hm ⟨pre, m', post, rfl, h1, h2⟩
      refine ⟨m :: pre, m', post, rfl, ?_, h2⟩
      intro x hx
      rcases List.mem_cons.1 hx with rfl | hx
      · exact hm
      · exact h1 x hx
    simp only [pMembers] at h
    split at h
    · rename_i i j hf
      split at h
      · cases h
      · rename_i s' e' hp
        cases h
        exact ⟨[], m, l, rfl, by simp, .inl ⟨i, j, _, hf, hp⟩⟩
      · rename_i ok v hp
        refine lift ⟨fun i' j' hf' => ?_, fun hn => ?_⟩ (ih _ _ (PRes.map_threw h))
        · rw [hf] at hf'
          cases hf'
          exact (hj m (by simp) i j hf).fine hp
        · rw [hf] at hn
          cases hn
    · rename_i hf
      split at h
      · rename_i hk
        exact lift ⟨by simp [hf], by simp [hk]⟩ (ih _ _ (PRes.map_threw h))
      · rename_i hk
        exact lift ⟨by simp [hf], by simp [hk]⟩ (ih _ _ (PRes.map_threw h))
      · rename_i hk
        simp at h
        exact ⟨[], m, l, rfl, by simp, .inr ⟨hf, hk, h.1.symm, h.2.symm⟩⟩

theorem pMembers_stops (env : Env) (fs : List (Str × Json)) (segs s : List Seg) (e : Err) (m : Member) (post pre : List Member)
    (hpre : ∀ m' ∈ pre, Passes env fs m') (hj : ∀ m' ∈ pre, ∀ i j, findMember m'.name fs = some (i, j) → Judged env true j m'.ty)
    (h : (∃ i j, findMember m.name fs = some (i, j) ∧ ∀ tg, pd env j true m.ty tg (Seg.name (cstr m.name) :: segs) = .threw s e) ∨
        (findMember m.name fs = none ∧ m.kind = .required ∧ s = segs ∧ e = .missing m.name)) : ∀ (targets : List Val) (res : Bool),
    pMembers env true fs segs (pre ++ m :: post) targets res = .threw s e := by
  induction pre with
  | nil =>
    intro targets res
    rcases h with ⟨i, j, hf, h⟩ | ⟨hf, hk, rfl, rfl⟩
    · simp only [List.nil_append, pMembers, hf, h]
    · simp only [List.nil_append, pMembers, hf, hk]
      rfl
  | cons x pre ih =>
    intro targets res
    have ih := ih (fun m hm => hpre m (by simp [hm])) (fun m hm => hj m (by simp [hm]))
    obtain ⟨h1, h2⟩ := hpre x (by simp)
    simp only [List.cons_append, pMembers]
    cases hf : findMember x.name fs with
    | some q =>
      obtain ⟨i, j⟩ := q
      obtain ⟨v, hv⟩ := (hj x (by simp) i j hf).gives (h1 i j hf)
        (if x.kind = .optional then env.fresh x.ty else targets.headD (env.fresh x.ty)) (Seg.name (cstr x.name) :: segs)
      simp only [hv]
      rw [ih]
      rfl
    | none =>
      cases hk : x.kind with
      | required => exact absurd hk (h2 hf)
      | optional => simp only; rw [ih]; rfl
      | default => simp only; rw [ih]; rfl

/-! ## What is thrown is the first failure -/

theorem threw_first (env : Env) (hu : env.Unshared) : ∀ j t, t.unshared = true → Calm env j → ∀ target segs s e,
    pd env j true t target segs = .threw s e → ∃ rel, FirstBad env t j rel e ∧ s = rel.reverse ++ segs := by
  apply lexInd
  intro j t ihj iht ht hc target segs s e hp
  have here : FirstBad env t j [] e → s = segs → ∃ rel, FirstBad env t j rel e ∧ s = rel.reverse ++ segs :=
    fun h hs => ⟨[], h, by simpa using hs⟩
  have J : ∀ j' t', t'.unshared = true → Calm env j' → Judged env true j' t' := fun j' t' h1 h2 => judged env hu j' t' h1 h2 true
  cases t with
  | prim p =>
    rw [pd_prim] at hp
    split at hp
    · cases hp
    · rename_i e' hr
      obtain ⟨rfl, rfl⟩ := PRes.reject_threw hp
      exact here (.leaf p j e (desPrim_reject env p j e hr)) rfl
    · cases hp
  | vec t =>
    cases j with
    | arr js =>
      rw [pd_vec env hu _ _ _ js t ht] at hp
      obtain ⟨pre, j', post, rfl, h1, h2⟩ := pSame_first env t js (fun x hx => J x t ht (hc.item hx)) segs s e 0 (PRes.map_threw hp)
      have hm : j' ∈ pre ++ j' :: post := by simp
      rw [Nat.zero_add] at h2
      obtain ⟨rel, h3, h4⟩ := ihj j' (size_item hm) t ht (hc.item hm) _ _ _ _ h2
      exact ⟨_, .vec t pre j' post rel e h1 h3, by simp [h4]⟩
    | _ =>
      rw [pd_not_arr env _ _ _ _ _ (by simp) (by simp)] at hp
      obtain ⟨rfl, rfl⟩ := PRes.reject_threw hp
      exact here (.array _ _ rfl (by simp)) rfl
  | arr n t =>
    cases j with
    | arr js =>
      rw [pd_arr env hu _ _ _ js n t ht] at hp
      split at hp
      · rename_i hl
        split at hp
        · cases hp
        · rename_i s' e' hr
          cases hp
          obtain ⟨pre, j', post, rfl, h1, h2⟩ := pSame_first env t js (fun x hx => J x t ht (hc.item hx)) segs s e 0 hr
          have hm : j' ∈ pre ++ j' :: post := by simp
          rw [Nat.zero_add] at h2
          obtain ⟨rel, h3, h4⟩ := ihj j' (size_item hm) t ht (hc.item hm) _ _ _ _ h2
          exact ⟨_, .arr n t pre j' post rel e hl h1 h3, by simp [h4]⟩
        · cases hp
        · cases hp
      · rename_i hl
        obtain ⟨rfl, rfl⟩ := PRes.reject_threw hp
        exact here (.arrLength n t js hl) rfl
    | _ =>
      rw [pd_not_arr env _ _ _ _ _ (by simp) (by simp)] at hp
      obtain ⟨rfl, rfl⟩ := PRes.reject_threw hp
      exact here (.array _ _ rfl (by simp)) rfl
  | set t =>
    cases j with
    | arr js =>
      rw [pd_set env hu _ _ _ js t ht] at hp
      obtain ⟨pre, j', post, rfl, h1, h2⟩ := pSame_first env t js (fun x hx => J x t ht (hc.item hx)) segs s e 0 (PRes.map_threw hp)
      have hm : j' ∈ pre ++ j' :: post := by simp
      rw [Nat.zero_add] at h2
      obtain ⟨rel, h3, h4⟩ := ihj j' (size_item hm) t ht (hc.item hm) _ _ _ _ h2
      exact ⟨_, .set t pre j' post rel e h1 h3, by simp [h4]⟩
    | _ =>
      rw [pd_not_arr env _ _ _ _ _ (by simp) (by simp)] at hp
      obtain ⟨rfl, rfl⟩ := PRes.reject_threw hp
      exact here (.array _ _ rfl (by simp)) rfl
  | map o t =>
    cases j with
    | obj ms =>
      rw [pd_map env hu _ _ _ ms o t ht] at hp
      obtain ⟨pre, key, j', post, rfl, h1, h2⟩ := pEntries_first env t ms (fun x hx => J x.2 t ht (hc.field hx)) segs s e (PRes.map_threw hp)
      have hm : (key, j') ∈ pre ++ (key, j') :: post := by simp
      obtain ⟨rel, h3, h4⟩ := ihj j' (size_field hm) t ht (hc.field hm) _ _ _ _ h2
      exact ⟨_, .map o t pre key j' post rel e h1 h3, by simp [h4]⟩
    | _ =>
      rw [pd_not_obj env _ _ _ _ _ (by simp) (by simp)] at hp
      obtain ⟨rfl, rfl⟩ := PRes.reject_threw hp
      exact here (.object _ _ rfl (by simp)) rfl
  | dict t =>
    cases j with
    | arr js =>
      have ht' : (Ty.tuple [.prim .str, t]).unshared = true := by simpa [Ty.unshared, Ty.unshareds] using ht
      rw [pd_dict env hu _ _ _ js t ht] at hp
      obtain ⟨pre, j', post, rfl, h1, h2⟩ := pSame_first env _ js (fun x hx => J x _ ht' (hc.item hx)) segs s e 0 (PRes.map_threw hp)
      have hm : j' ∈ pre ++ j' :: post := by simp
      rw [Nat.zero_add] at h2
      obtain ⟨rel, h3, h4⟩ := ihj j' (size_item hm) _ ht' (hc.item hm) _ _ _ _ h2
      exact ⟨_, .dict t pre j' post rel e h1 h3, by simp [h4]⟩
    | _ =>
      rw [pd_not_arr env _ _ _ _ _ (by simp) (by simp)] at hp
      obtain ⟨rfl, rfl⟩ := PRes.reject_threw hp
      exact here (.array _ _ rfl (by simp)) rfl
  | tuple ts =>
    cases j with
    | arr js =>
      rw [pd_tuple env hu _ _ _ js ts ht] at hp
      split at hp
      · rename_i hl
        obtain ⟨i, j', t, tg, h1, h1', hb, h2⟩ := pTuple_first env js segs s e ts _ 0
          (fun x hx t htm => J x t ((Ty.unshareds_iff ts).1 ht t htm) (hc.item hx)) (PRes.map_threw hp)
        rw [Nat.zero_add] at h2
        have hm := List.mem_of_getElem? h1
        obtain ⟨rel, h3, h4⟩ := ihj j' (size_item hm) t ((Ty.unshareds_iff ts).1 ht t (List.mem_of_getElem? h1')) (hc.item hm) _ _ _ _ h2
        exact ⟨_, .tuple ts js i t j' rel e hl h1' h1 hb h3, by simp [h4]⟩
      · rename_i hl
        obtain ⟨rfl, rfl⟩ := PRes.reject_threw hp
        exact here (.tupleLength ts js hl) rfl
    | _ =>
      rw [pd_not_arr env _ _ _ _ _ (by simp) (by simp)] at hp
      obtain ⟨rfl, rfl⟩ := PRes.reject_threw hp
      exact here (.array _ _ rfl (by simp)) rfl
  | variant ts =>
    have hun : ∀ t ∈ ts, t.unshared = true := (Ty.unshareds_iff ts).1 ht
    have hr : Refused env true (.variant ts) j := by
      rcases J j (.variant ts) ht hc with ⟨h, _⟩ | ⟨_, h⟩
      · exact h
      · obtain ⟨v, hv⟩ := h target segs
        rw [hv] at hp
        cases hp
    rw [pd_variant env hu _ _ _ j ts ht] at hp
    have hall : ∀ t ∈ ts, Refused env false t j := by
      cases hr with
      | variant _ _ _ h => exact h
      | array _ _ _ h => cases h
      | object _ _ _ h => cases h
    rcases pAll_judged env j ts (fun t h => judged env hu j t (hun t h) hc false) with ⟨h1, h2⟩ | ⟨i, t, h1, h2, h3, h4⟩
    · obtain ⟨v, hv⟩ := h2 0 segs
      rw [hv] at hp
      obtain ⟨rfl, rfl⟩ := PRes.reject_threw hp
      exact here (.variant ts j hall) rfl
    · exact absurd (hall t (List.mem_of_getElem? h1)) h2
  | cls c =>
    cases j with
    | obj ms =>
      rw [pd_cls env hu _ _ _ ms c] at hp
      obtain ⟨pre, m, post, hl, h1, h2⟩ := pMembers_first env ms segs s e (env.members c)
        (fun m hm i j hf => J j m.ty (hu c m hm) (hc.field (findMember_mem hf))) _ true (PRes.map_threw hp)
      rcases h2 with ⟨i, j', tg, hf, h2⟩ | ⟨hf, hk, rfl, rfl⟩
      · have hm := findMember_mem hf
        obtain ⟨rel, h3, h4⟩ := ihj j' (size_field hm) m.ty (hu c m (by rw [hl]; simp)) (hc.field hm) _ _ _ _ h2
        exact ⟨_, .member c ms pre m post i j' rel e hl h1 hf h3, by simp [h4]⟩
      · exact here (.missing c ms pre m post hl h1 hf hk) rfl
    | _ =>
      rw [pd_not_obj env _ _ _ _ _ (by simp) (by simp)] at hp
      obtain ⟨rfl, rfl⟩ := PRes.reject_threw hp
      exact here (.object _ _ rfl (by simp)) rfl
  | uptr t =>
    rw [pd_uptr env hu _ _ _ j t ht] at hp
    split at hp
    · cases hp
    · rename_i s' e' hr
      cases hp
      obtain ⟨rel, h1, h2⟩ := iht t (by simp) ht hc _ _ _ _ hr
      exact ⟨rel, .uptr t j rel e h1, h2⟩
    · cases hp
    · cases hp
  | sptr t => simp [Ty.unshared] at ht

theorem desInt_reason (t : IntTy) (j : Json) :
    ((∀ v, (wideType t).InRange v → j ≠ .num (.int v)) → desInt t j = .reject (.expectedInt (wideType t))) ∧
    (∀ v, j = .num (.int v) → (wideType t).InRange v → ¬ t.InRange v → desInt t j = .reject (.outOfRange t.signed)) := by
  constructor
  · intro h
    cases j with
    | num n =>
      cases n with
      | dbl d => rfl
      | int v =>
        have hw : ¬ (wideType t).InRange v := fun hw => h v hw rfl
        simp only [desInt, deserializeInt, JsonNum.is, hw, decide_false]
        rfl
    | _ => rfl
  · rintro v rfl hw hv
    have hn : ∀ w, deserializeInt t (.int v) ≠ .ok w := fun w h => by
      obtain ⟨h1, h2⟩ := (Props.C15_deserialize_int_exact t (.int v) w).1 h
      cases h1
      exact hv h2
    simp only [deserializeInt, JsonNum.is, hw, decide_true, if_true] at hn
    simp only [desInt, deserializeInt, JsonNum.is, hw, decide_true, if_true]
    split
    · rename_i hd
      exact absurd hd (hn _)
    · rename_i hd
      split at hd <;> cases hd
    · rfl

theorem desPrim_reason (env : Env) (p : Prim) (j : Json) (e : Err) (h : LeafReason env p j e) : desPrim env p j = .reject e := by
  cases h with
  | null _ h => cases j <;> first | rfl | exact absurd rfl h
  | bool _ h => cases j <;> first | rfl | exact absurd rfl (h _)
  | int t _ h => exact (desInt_reason t j).1 h
  | intRange t v hw h => exact (desInt_reason t _).2 v rfl hw h
  | enumInt t _ h => exact (desInt_reason t j).1 h
  | enumIntRange t v hw h => exact (desInt_reason t _).2 v rfl hw h
  | flt t _ h => cases j <;> first | rfl | exact absurd rfl (h _)
  | string _ _ hp h => cases p <;> first | (cases hp; done) | (cases j <;> first | rfl | exact absurd rfl (h _))
  | bytes s h => rw [desPrim_bytes, h]
  | time s h => rw [desPrim_time, h]
  | date s h => rw [desPrim_date, h]
  | enumStr table s h => rw [desPrim_enumStr, h]

theorem first_threw (env : Env) (hu : env.Unshared) (t : Ty) (j : Json) (rel : List Seg) (e : Err) (h : FirstBad env t j rel e) :
    t.unshared = true → Calm env j → ∀ target segs, pd env j true t target segs = .threw (rel.reverse ++ segs) e := by
  have J : ∀ j' t', t'.unshared = true → Calm env j' → Judged env true j' t' := fun j' t' h1 h2 => judged env hu j' t' h1 h2 true
  induction h with
  | leaf p j e h => intro _ _ tg sg; rw [pd_prim, desPrim_reason env p j e h]; rfl
  | array t j hw hj =>
    intro _ _ tg sg
    rw [pd_not_arr env true tg sg j t hj (by cases t <;> simp_all [Ty.wantsArray])]
    rfl
  | object t j hw hj =>
    intro _ _ tg sg
    rw [pd_not_obj env true tg sg j t hj (by cases t <;> simp_all [Ty.wantsObject])]
    rfl
  | vec t pre j post rel e hpre _ ih =>
    intro ht hc tg sg
    rw [pd_vec env hu _ _ _ _ t ht, pSame_throws env t j post sg (rel.reverse ++ .index pre.length :: sg) e pre 0
      (fun x hx => (J x t ht (hc.item (by simp [hx]))).gives (hpre x hx)) (by rw [Nat.zero_add]; exact ih ht (hc.item (by simp)) _ _)]
    simp [PRes.map]
  | set t pre j post rel e hpre _ ih =>
    intro ht hc tg sg
    rw [pd_set env hu _ _ _ _ t ht, pSame_throws env t j post sg (rel.reverse ++ .index pre.length :: sg) e pre 0
      (fun x hx => (J x t ht (hc.item (by simp [hx]))).gives (hpre x hx)) (by rw [Nat.zero_add]; exact ih ht (hc.item (by simp)) _ _)]
    simp [PRes.map]
  | dict t pre j post rel e hpre _ ih =>
    intro ht hc tg sg
    have ht' : (Ty.tuple [.prim .str, t]).unshared = true := by simpa [Ty.unshared, Ty.unshareds] using ht
    rw [pd_dict env hu _ _ _ _ t ht, pSame_throws env _ j post sg (rel.reverse ++ .index pre.length :: sg) e pre 0
      (fun x hx => (J x _ ht' (hc.item (by simp [hx]))).gives (hpre x hx)) (by rw [Nat.zero_add]; exact ih ht' (hc.item (by simp)) _ _)]
    simp [PRes.map]
  | arr n t pre j post rel e hl hpre _ ih =>
    intro ht hc tg sg
    rw [pd_arr env hu _ _ _ _ n t ht, if_pos hl, pSame_throws env t j post sg (rel.reverse ++ .index pre.length :: sg) e pre 0
      (fun x hx => (J x t ht (hc.item (by simp [hx]))).gives (hpre x hx)) (by rw [Nat.zero_add]; exact ih ht (hc.item (by simp)) _ _)]
    simp
  | arrLength n t js hl => intro ht hc tg sg; rw [pd_arr env hu _ _ _ _ n t ht, if_neg hl]; rfl
  | tuple ts js i t j rel e hl h1 h2 hpre _ ih =>
    intro ht hc tg sg
    have hts : ∀ t ∈ ts, t.unshared = true := (Ty.unshareds_iff ts).1 ht
    rw [pd_tuple env hu _ _ _ js ts ht, if_pos hl, pTuple_throws env js sg (rel.reverse ++ .index i :: sg) e t j ts _ 0 i h1 h2
      (fun l t' j' hl e1 e2 => (J j' t' (hts t' (List.mem_of_getElem? e1)) (hc.item (List.mem_of_getElem? e2))).gives (hpre l t' j' hl e1 e2))
      (fun tg => by rw [Nat.zero_add]; exact ih (hts t (List.mem_of_getElem? h1)) (hc.item (List.mem_of_getElem? h2)) _ _)]
    simp [PRes.map]
  | tupleLength ts js hl => intro ht hc tg sg; rw [pd_tuple env hu _ _ _ js ts ht, if_neg hl]; rfl
  | map o t pre key j post rel e hpre _ ih =>
    intro ht hc tg sg
    rw [pd_map env hu _ _ _ _ o t ht, pEntries_throws env t key j post sg (rel.reverse ++ Seg.name (cstr key) :: sg) e pre
      (fun x hx => (J x.2 t ht (hc.field (p := x) (by simp [hx]))).gives (hpre x hx)) (ih ht (hc.field (p := (key, j)) (by simp)) _ _)]
    simp [PRes.map]
  | variant ts j hall =>
    intro ht hc tg sg
    have hun : ∀ t ∈ ts, t.unshared = true := (Ty.unshareds_iff ts).1 ht
    rw [pd_variant env hu _ _ _ j ts ht]
    rcases pAll_judged env j ts (fun t h => judged env hu j t (hun t h) hc false) with ⟨h1, h2⟩ | ⟨i, t, h1, h2, h3, h4⟩
    · obtain ⟨v, hv⟩ := h2 0 sg
      rw [hv]
      rfl
    · exact absurd (hall t (List.mem_of_getElem? h1)) h2
  | member c ms pre m post i j rel e hl hpre hf _ ih =>
    intro ht hc tg sg
    rw [pd_cls env hu _ _ _ ms c, hl, pMembers_stops env ms sg (rel.reverse ++ Seg.name (cstr m.name) :: sg) e m post pre hpre
      (fun m' hm' i j hf => J j m'.ty (hu c m' (by rw [hl]; simp [hm'])) (hc.field (findMember_mem hf)))
      (.inl ⟨i, j, hf, fun tg => ih (hu c m (by rw [hl]; simp)) (hc.field (findMember_mem hf)) _ _⟩)]
    simp [PRes.map]
  | missing c ms pre m post hl hpre hf hk =>
    intro ht hc tg sg
    rw [pd_cls env hu _ _ _ ms c, hl, pMembers_stops env ms sg sg (.missing m.name) m post pre hpre
      (fun m' hm' i j hf => J j m'.ty (hu c m' (by rw [hl]; simp [hm'])) (hc.field (findMember_mem hf)))
      (.inr ⟨hf, hk, rfl, rfl⟩)]
    simp [PRes.map]
  | uptr t j rel e _ ih =>
    intro ht hc tg sg
    rw [pd_uptr env hu _ _ _ j t ht, ih ht hc]

end Verif.Core
