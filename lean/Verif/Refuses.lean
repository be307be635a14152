import Verif.Rejects

/-!
# Documents with references that are not in order

`deser` never succeeds on a node that cannot be read (`Breaks`), also if the reason is a reference, unless a later member of an object masks
the failure of an earlier one (`Masks`).
-/

namespace Verif.Core
open Verif.Numeric Verif.EnumConv

/-! ## Specification -/

/-- The member at position `n` of the class cannot be read from this object: it is in the document and `Breaks`, or it is required and not in the
document. -/
def BrokenAt (env : Env) (root : Json) (D : Loc → Ty → Prop) (c : Nat) (fields : List (Str × Json)) (loc : Loc) (n : Nat) (m : Member) : Prop :=
  (∃ i j, findMember m.name fields = some (i, j) ∧ Breaks env root (fun q u => D q u ∨ Sooner env (.cls c) (.obj fields) loc n q u) m.ty j (i :: loc)) ∨
  (findMember m.name fields = none ∧ m.kind = .required)

/-- A member of some object in the node cannot be read, but the last member that matters can. -/
inductive Masks (env : Env) (root : Json) : (Loc → Ty → Prop) → Ty → Json → Loc → Prop
  | here (D : Loc → Ty → Prop) (c : Nat) (fields : List (Str × Json)) (loc : Loc) (n : Nat) (m : Member) : (env.members c)[n]? = some m →
      BrokenAt env root D c fields loc n m →
      (∀ (n : Nat) (m : Member), (env.members c)[n]? = some m → BrokenAt env root D c fields loc n m →
        ∃ (k : Nat) (m' : Member), n < k ∧ (env.members c)[k]? = some m' ∧ ¬ Irrelevant fields m') →
      Masks env root D (.cls c) (.obj fields) loc
  | component (D : Loc → Ty → Prop) (t : Ty) (j : Json) (loc : Loc) (n : Nat) (t' : Ty) (j' : Json) (loc' : Loc) : Nth env t j loc n t' j' loc' →
      Masks env root (fun q u => D q u ∨ Sooner env t j loc n q u) t' j' loc' → Masks env root D t j loc

/-! ## Lists of components -/

/-- What is to be shown of a component. -/
def Halts (env : Env) (root : Json) (exc : Bool) (Q : Nat → DState → Prop) (B : Prop) (n : Nat) (t : Ty) (j : Json) (loc : Loc) : Prop :=
  ∀ st, Q n st → ∀ target segs ok w st', deser env root j exc t target loc segs st = .done ok w st' → Q (n + 1) st' ∧ (B → ok = false)

theorem halts_all {env : Env} {root : Json} {exc : Bool} {t : Ty} {loc : Loc} (Q : Nat → DState → Prop) (B : Nat → Prop) (segs : List Seg) (js : List Json) : ∀ (k : Nat),
    (∀ (i : Nat) (j : Json), js[i]? = some j → Halts env root exc Q (B (k + i)) (k + i) t j ((k + i) :: loc)) → ∀ st, Q k st →
    ∀ ok vs st', runSame env t exc (js.map (deser env root)) k loc segs st = .done ok vs st' → (∃ n, Q n st') ∧ ((∃ i, i < js.length ∧ B (k + i)) → ok = false) := by
  induction js with
  | nil => intro k _ st hq ok vs st' h; cases h; exact ⟨⟨k, hq⟩, fun ⟨i, h, _⟩ => by simp at h⟩
  | cons j js ih =>
    intro k h st hq ok vs st' hr
    simp only [List.map_cons, runSame] at hr
    cases h1 : deser env root j exc t (env.fresh t) (k :: loc) (.index k :: segs) st with
    | ub => rw [h1] at hr; cases hr
    | threw s e => rw [h1] at hr; cases hr
    | done ok1 w st1 =>
      rw [h1] at hr
      obtain ⟨q1, b1⟩ := h 0 j rfl st hq _ _ _ _ _ h1
      cases ok1 with
      | false => cases hr; exact ⟨⟨_, q1⟩, fun _ => rfl⟩
      | true =>
        simp only at hr
        cases h2 : runSame env t exc (js.map (deser env root)) (k + 1) loc segs st1 with
        | ub => rw [h2] at hr; cases hr
        | threw s e => rw [h2] at hr; cases hr
        | done ok2 vs2 st2 =>
          rw [h2] at hr
          cases hr
          obtain ⟨q2, b2⟩ := ih (k + 1) (fun i j hj => by have := h (i + 1) j hj; rwa [show k + (i + 1) = k + 1 + i by omega] at this) st1 q1 _ _ _ h2
          refine ⟨q2, fun ⟨i, hi, hb⟩ => ?_⟩
          cases i with
          | zero => cases b1 hb
          | succ i => exact b2 ⟨i, by simpa using hi, by rwa [show k + (i + 1) = k + 1 + i by omega] at hb⟩

theorem halts_entries {env : Env} {root : Json} {exc : Bool} {t : Ty} {loc : Loc} (Q : Nat → DState → Prop) (B : Nat → Prop) (segs : List Seg) (ms : List (Str × Json)) : ∀ (k : Nat),
    (∀ (i : Nat) (p : Str × Json), ms[i]? = some p → Halts env root exc Q (B (k + i)) (k + i) t p.2 ((k + i) :: loc)) → ∀ st, Q k st →
    ∀ ok vs st', runEntries env t exc (ms.map fun p => (p.1, deser env root p.2)) k loc segs st = .done ok vs st' →
      (∃ n, Q n st') ∧ ((∃ i, i < ms.length ∧ B (k + i)) → ok = false) := by
  induction ms with
  | nil => intro k _ st hq ok vs st' h; cases h; exact ⟨⟨k, hq⟩, fun ⟨i, h, _⟩ => by simp at h⟩
  | cons p ms ih =>
    intro k h st hq ok vs st' hr
    simp only [List.map_cons, runEntries] at hr
    cases h1 : deser env root p.2 exc t (env.fresh t) (k :: loc) (.name (cstr p.1) :: segs) st with
    | ub => rw [h1] at hr; cases hr
    | threw s e => rw [h1] at hr; cases hr
    | done ok1 w st1 =>
      rw [h1] at hr
      obtain ⟨q1, b1⟩ := h 0 p rfl st hq _ _ _ _ _ h1
      cases ok1 with
      | false => cases hr; exact ⟨⟨_, q1⟩, fun _ => rfl⟩
      | true =>
        simp only at hr
        cases h2 : runEntries env t exc (ms.map fun p => (p.1, deser env root p.2)) (k + 1) loc segs st1 with
        | ub => rw [h2] at hr; cases hr
        | threw s e => rw [h2] at hr; cases hr
        | done ok2 vs2 st2 =>
          rw [h2] at hr
          cases hr
          obtain ⟨q2, b2⟩ := ih (k + 1) (fun i j hj => by have := h (i + 1) j hj; rwa [show k + (i + 1) = k + 1 + i by omega] at this) st1 q1 _ _ _ h2
          refine ⟨q2, fun ⟨i, hi, hb⟩ => ?_⟩
          cases i with
          | zero => cases b1 hb
          | succ i => exact b2 ⟨i, by simpa using hi, by rwa [show k + (i + 1) = k + 1 + i by omega] at hb⟩

theorem halts_each {env : Env} {root : Json} {exc : Bool} {loc : Loc} (Q : Nat → DState → Prop) (B : Nat → Prop) (segs : List Seg) (js : List Json) : ∀ (ts : List Ty) (k : Nat),
    (∀ (i : Nat) (t : Ty) (j : Json), ts[i]? = some t → js[i]? = some j → Halts env root exc Q (B (k + i)) (k + i) t j ((k + i) :: loc)) → ∀ targets st, Q k st →
    ∀ ok vs st', runTuple env exc (js.map (deser env root)) ts targets k loc segs st = .done ok vs st' →
      (∃ n, Q n st') ∧ ((∃ i, i < js.length ∧ i < ts.length ∧ B (k + i)) → ok = false) := by
  induction js with
  | nil =>
    intro ts k _ targets st hq ok vs st' h
    have : (DRes.done true [] st : DRes (List Val)) = .done ok vs st' := by cases ts <;> exact h
    cases this
    exact ⟨⟨k, hq⟩, fun ⟨i, h, _⟩ => by simp at h⟩
  | cons j js ih =>
    intro ts k h targets st hq ok vs st' hr
    cases ts with
    | nil => cases hr; exact ⟨⟨k, hq⟩, fun ⟨i, _, h, _⟩ => by simp at h⟩
    | cons t ts =>
      simp only [List.map_cons, runTuple] at hr
      cases h1 : deser env root j exc t (targets.headD (env.fresh t)) (k :: loc) (.index k :: segs) st with
      | ub => rw [h1] at hr; cases hr
      | threw s e => rw [h1] at hr; cases hr
      | done ok1 w st1 =>
        rw [h1] at hr
        obtain ⟨q1, b1⟩ := h 0 t j rfl rfl st hq _ _ _ _ _ h1
        cases ok1 with
        | false => cases hr; exact ⟨⟨_, q1⟩, fun _ => rfl⟩
        | true =>
          simp only at hr
          cases h2 : runTuple env exc (js.map (deser env root)) ts targets.tail (k + 1) loc segs st1 with
          | ub => rw [h2] at hr; cases hr
          | threw s e => rw [h2] at hr; cases hr
          | done ok2 vs2 st2 =>
            rw [h2] at hr
            cases hr
            obtain ⟨q2, b2⟩ := ih ts (k + 1) (fun i t j ht hj => by have := h (i + 1) t j ht hj; rwa [show k + (i + 1) = k + 1 + i by omega] at this) _ st1 q1 _ _ _ h2
            refine ⟨q2, fun ⟨i, hi, hi', hb⟩ => ?_⟩
            cases i with
            | zero => cases b1 hb
            | succ i => exact b2 ⟨i, by simpa using hi, by simpa using hi', by rwa [show k + (i + 1) = k + 1 + i by omega] at hb⟩

theorem halts_members {env : Env} {root : Json} {exc : Bool} {fields : List (Str × Json)} {loc : Loc} (Q : Nat → DState → Prop) (B : Nat → Prop) (segs : List Seg)
    (ms : List Member) : ∀ (k : Nat),
    (∀ (n : Nat) (m : Member), ms[n]? = some m → (findMember m.name fields = none → ∀ st, Q (k + n) st → Q (k + n + 1) st) ∧
      ∀ i j, findMember m.name fields = some (i, j) → Halts env root exc Q (B (k + n)) (k + n) m.ty j (i :: loc)) →
    ∀ targets res st, Q k st → ∀ ok vs st', runMembers env exc (fields.map fun p => (p.1, deser env root p.2)) loc segs ms targets res st = .done ok vs st' →
      (∃ n, Q n st') ∧ ((∀ m ∈ ms, Irrelevant fields m) → ok = res) ∧
      ∀ (n : Nat) (m : Member), ms[n]? = some m → ((∃ i j, findMember m.name fields = some (i, j)) ∧ B (k + n)) ∨ (findMember m.name fields = none ∧ m.kind = .required) →
        (∀ (i : Nat) (m' : Member), n < i → ms[i]? = some m' → Irrelevant fields m') → ok = false := by
  induction ms with
  | nil =>
    intro k _ targets res st hq ok vs st' h
    cases h
    exact ⟨⟨k, hq⟩, fun _ => rfl, fun n m h => by simp at h⟩
  | cons m ms ih =>
    intro k h targets res st hq ok vs st' hr
    have ih := ih (k + 1) fun i m hm => by have := h (i + 1) m hm; rwa [show k + (i + 1) = k + 1 + i by omega] at this
    obtain ⟨h1, h2⟩ := h 0 m rfl
    have irr : (∀ (i : Nat) (m' : Member), 0 < i → (m :: ms)[i]? = some m' → Irrelevant fields m') → ∀ m' ∈ ms, Irrelevant fields m' := by
      intro hi m' hm'
      obtain ⟨i, hi'⟩ := List.mem_iff_getElem?.1 hm'
      exact hi (i + 1) m' (by omega) (by simpa using hi')
    simp only [runMembers, findMember_map] at hr
    cases hf : findMember m.name fields with
    | none =>
      rw [hf] at hr
      simp only [Option.map_none] at hr
      have hq' := h1 hf st hq
      have later : ∀ (res' : Bool) (f : List Val → List Val) , (m.kind = .required → res' = false) → (m.kind ≠ .required → res' = res) →
          (runMembers env exc (fields.map fun p => (p.1, deser env root p.2)) loc segs ms targets.tail res' st).map f = .done ok vs st' →
          (∃ n, Q n st') ∧ ((∀ m' ∈ m :: ms, Irrelevant fields m') → ok = res) ∧
          ∀ (n : Nat) (m' : Member), (m :: ms)[n]? = some m' → ((∃ i j, findMember m'.name fields = some (i, j)) ∧ B (k + n)) ∨ (findMember m'.name fields = none ∧ m'.kind = .required) →
            (∀ (i : Nat) (m' : Member), n < i → (m :: ms)[i]? = some m' → Irrelevant fields m') → ok = false := by
        intro res' f hreq hnot hr
        cases h3 : runMembers env exc (fields.map fun p => (p.1, deser env root p.2)) loc segs ms targets.tail res' st with
        | ub => rw [h3] at hr; cases hr
        | threw s e => rw [h3] at hr; cases hr
        | done ok2 vs2 st2 =>
          rw [h3] at hr
          cases hr
          obtain ⟨q, r1, r2⟩ := ih targets.tail res' st hq' _ _ _ h3
          refine ⟨q, fun hi => ?_, fun n m' hm' hb hi => ?_⟩
          · rw [r1 fun m' hm' => hi m' (by simp [hm']), hnot (hi m (by simp)).2]
          · cases n with
            | zero =>
              cases hm'
              rcases hb with ⟨⟨i, j, hb⟩, -⟩ | ⟨-, hb⟩
              · rw [hf] at hb; cases hb
              · rw [r1 (irr hi), hreq hb]
            | succ n => exact r2 n m' (by simpa using hm') (by rwa [show k + 1 + n = k + (n + 1) by omega]) fun i m2 hi' hm2 => hi (i + 1) m2 (by omega) (by simpa using hm2)
      cases hk : m.kind with
      | required =>
        rw [hk] at hr
        cases exc with
        | true => cases hr
        | false => exact later false _ (fun _ => rfl) (fun h => absurd hk h) (by simpa using hr)
      | optional => rw [hk] at hr; exact later res _ (fun h => by rw [hk] at h; cases h) (fun _ => rfl) hr
      | default => rw [hk] at hr; exact later res _ (fun h => by rw [hk] at h; cases h) (fun _ => rfl) hr
    | some p =>
      obtain ⟨i, j⟩ := p
      rw [hf] at hr
      simp only [Option.map_some] at hr
      cases h3 : deser env root j exc m.ty (if m.kind = .optional then env.fresh m.ty else targets.headD (env.fresh m.ty)) (i :: loc) (Seg.name (cstr m.name) :: segs) st with
      | ub => rw [h3] at hr; cases hr
      | threw s e => rw [h3] at hr; cases hr
      | done ok1 w st1 =>
        rw [h3] at hr
        simp only at hr
        obtain ⟨q1, b1⟩ := h2 i j hf st hq _ _ _ _ _ h3
        cases h4 : runMembers env exc (fields.map fun p => (p.1, deser env root p.2)) loc segs ms targets.tail ok1 st1 with
        | ub => rw [h4] at hr; cases hr
        | threw s e => rw [h4] at hr; cases hr
        | done ok2 vs2 st2 =>
          rw [h4] at hr
          cases hr
          obtain ⟨q, r1, r2⟩ := ih targets.tail ok1 st1 q1 _ _ _ h4
          refine ⟨q, fun hi => ?_, fun n m' hm' hb hi => ?_⟩
          · have := (hi m (by simp)).1
            rw [hf] at this
            cases this
          · cases n with
            | zero =>
              cases hm'
              rcases hb with ⟨-, hb⟩ | ⟨hb, -⟩
              · rw [r1 (irr hi), b1 hb]
              · rw [hf] at hb; cases hb
            | succ n => exact r2 n m' (by simpa using hm') (by rwa [show k + 1 + n = k + (n + 1) by omega]) fun i m2 hi' hm2 => hi (i + 1) m2 (by omega) (by simpa using hm2)

/-! ## Nodes -/

theorem tryAll_drop (env : Env) (root j : Json) (loc : Loc) (segs : List Seg) : ∀ (i : Nat) (ts : List Ty) (n : Nat) (st : DState),
    (∀ (k : Nat) (t' : Ty), k < i → ts[k]? = some t' → ∀ st, ∃ w, deser env root j false t' (env.fresh t') loc segs st = .done false w { st with next := st.next + wasted [t'] }) →
    tryAll env root j ts n loc segs st = tryAll env root j (ts.drop i) (n + i) loc segs { st with next := st.next + wasted (ts.take i) } := by
  intro i
  induction i with
  | zero => intro ts n st _; rfl
  | succ i ih =>
    intro ts n st h
    cases ts with
    | nil => simp only [List.drop_nil, List.take_nil]; rfl
    | cons t ts =>
      obtain ⟨w, hw⟩ := h 0 t (by omega) rfl st
      rw [tryAll, hw]
      have : wasted ((t :: ts).take (i + 1)) = wasted [t] + wasted (ts.take i) := wasted_append [t] (ts.take i)
      rw [this, List.drop_succ_cons]
      have := ih ts (n + 1) { st with next := st.next + wasted [t] } (fun k t' hk ht' => h (k + 1) t' (by omega) (by simpa using ht'))
      rw [Nat.add_assoc, Nat.add_comm 1 i] at this
      simp only [Nat.add_assoc] at this ⊢
      exact this

/-- What is to be shown of a node. -/
def Stuck (env : Env) (root : Json) (exc : Bool) (j : Json) (t : Ty) : Prop := ∀ loc D st, Covered st D → Clear D loc → ¬ Masks env root D t j loc → ∀ target segs ok w st',
  deser env root j exc t target loc segs st = .done ok w st' →
    Covered st' (fun q u => D q u ∨ Holds env t j loc q u) ∧ (Breaks env root D t j loc → ok = false)

theorem stuck (env : Env) (hd : env.DistinctNames) (root : Json) : ∀ j t, ∀ exc, Calm env j → Tame env t j → Unnested env t → OrderlyAlts env t j → Stuck env root exc j t := by
  apply lexInd
  intro j t ihj iht exc hcalm htame hun ho loc D st hcov hclear hmask target segs ok w st' hr
  have child : ∀ {n t' j' loc'}, Nth env t j loc n t' j' loc' → Calm env j' → ∀ exc, Stuck env root exc j' t' := by
    intro n t' j' loc' h hc exc
    rcases h.smaller with hlt | ⟨rfl, hlt⟩
    · exact ihj j' hlt t' exc hc (htame.child h.child) (hun.inner h.inner) (ho.child h.child)
    · exact iht t' hlt exc hc (htame.child h.child) (hun.inner h.inner) (ho.child h.child)
  let E : Nat → Loc → Ty → Prop := fun n q u => D q u ∨ Sooner env t j loc n q u
  let Q : Nat → DState → Prop := fun n st => Covered st (E n)
  let B : Nat → Prop := fun n => ∃ t' j' loc', Nth env t j loc n t' j' loc' ∧ Breaks env root (E n) t' j' loc'
  have q0 : Q 0 st := hcov.mono fun _ _ => .inl
  have comp : ∀ {n t' j' loc'} (exc : Bool), Nth env t j loc n t' j' loc' → Calm env j' → Halts env root exc Q (B n) n t' j' loc' := by
    intro n t' j' loc' exc h hc st hq target segs ok w st' hr
    obtain ⟨h1, h2⟩ := child h hc exc loc' (E n) st hq (hclear.component hd h) (fun h' => hmask (.component _ _ _ _ n t' j' loc' h h')) target segs ok w st' hr
    refine ⟨h1.mono fun q u hq => ?_, fun ⟨t2, j2, loc2, hn, hb⟩ => ?_⟩
    · show D q u ∨ _
      rw [Sooner.succ h, ← or_assoc]
      exact hq
    · obtain ⟨rfl, rfl, rfl⟩ := h.unique hn
      exact h2 hb
  have fin : ∀ {n st'}, Q n st' → Covered st' fun q u => D q u ∨ Holds env t j loc q u := fun h => h.mono fun q u hq => hq.imp id Sooner.holds
  have rejected : ∀ {e w'}, (DRes.reject exc segs e w' st : DRes Val) = .done ok w st' →
      Covered st' (fun q u => D q u ∨ Holds env t j loc q u) ∧ (Breaks env root D t j loc → ok = false) := by
    intro e w' h
    cases exc with
    | true => cases h
    | false => cases h; exact ⟨fin q0, fun _ => rfl⟩
  have mapped : ∀ {α : Type} {r : DRes α} {f : α → Val}, r.map f = .done ok w st' → ∃ x, r = .done ok x st' := by
    intro α r f h
    cases r with
    | ub => cases h
    | threw s e => cases h
    | done ok1 x st1 => cases h; exact ⟨x, rfl⟩
  cases t with
  | prim p =>
    rw [deser_prim] at hr
    cases hp : desPrim env p j with
    | ub => rw [hp] at hr; cases hr
    | reject e => rw [hp] at hr; exact rejected hr
    | ok pv =>
      rw [hp] at hr
      cases hr
      refine ⟨fin q0, fun hb => ?_⟩
      rcases hb.split with h | ⟨n, t', j', loc', hn, -⟩ | ⟨u, r, h, -⟩
      · cases h with
        | prim _ _ h => exact absurd ((desPrim_ok env p j pv).1 hp) (h pv)
        | array _ _ h => cases h
        | object _ _ h => cases h
      · cases hn
      · cases h
  | vec t =>
    rw [deser_vec] at hr
    cases j with
    | arr js =>
      obtain ⟨vs, hr⟩ := mapped hr
      obtain ⟨⟨n, h2⟩, h3⟩ := halts_all Q B segs js 0
        (fun i j hj => by rw [Nat.zero_add]; exact comp exc (.vec t js i j loc hj) (hcalm.item (List.mem_of_getElem? hj))) st q0 _ _ _ hr
      refine ⟨fin h2, fun hb => h3 ?_⟩
      rcases hb.split with h | ⟨n, t', j', loc', hn, hb⟩ | ⟨u, r, h, -⟩
      · cases h with
        | array _ _ _ h => exact absurd rfl (h js)
        | object _ _ h => cases h
      · refine ⟨n, ?_, by rw [Nat.zero_add]; exact ⟨t', j', loc', hn, hb⟩⟩
        cases hn with | vec _ _ _ _ _ h => exact (List.getElem?_eq_some_iff.1 h).1
      · cases h
    | _ => exact rejected hr
  | arr m t =>
    rw [deser_arr] at hr
    cases j with
    | arr js =>
      simp only at hr
      split at hr
      · next hlen =>
        cases h1 : runSame env t exc (js.map (deser env root)) 0 loc segs st with
        | ub => rw [h1] at hr; cases hr
        | threw s e => rw [h1] at hr; cases hr
        | done ok1 vs st1 =>
          obtain ⟨⟨n, h2⟩, h3⟩ := halts_all Q B segs js 0
            (fun i j hj => by rw [Nat.zero_add]; exact comp exc (.arr m t js i j loc hj) (hcalm.item (List.mem_of_getElem? hj))) st q0 _ _ _ h1
          rw [h1] at hr
          have hm : Breaks env root D (.arr m t) (.arr js) loc → ok1 = false := by
            intro hb
            refine h3 ?_
            rcases hb.split with h | ⟨n, t', j', loc', hn, hb⟩ | ⟨u, r, h, -⟩
            · cases h with
              | array _ _ _ h => exact absurd rfl (h js)
              | object _ _ h => cases h
              | arrLength _ _ _ h => exact absurd hlen h
            · refine ⟨n, ?_, by rw [Nat.zero_add]; exact ⟨t', j', loc', hn, hb⟩⟩
              cases hn with | arr _ _ _ _ _ _ h => exact (List.getElem?_eq_some_iff.1 h).1
            · cases h
          cases ok1 <;> cases hr <;> exact ⟨fin h2, hm⟩
      · exact rejected hr
    | _ => exact rejected hr
  | set t =>
    rw [deser_set] at hr
    cases j with
    | arr js =>
      obtain ⟨vs, hr⟩ := mapped hr
      obtain ⟨⟨n, h2⟩, h3⟩ := halts_all Q B segs js 0
        (fun i j hj => by rw [Nat.zero_add]; exact comp exc (.set t js i j loc hj) (hcalm.item (List.mem_of_getElem? hj))) st q0 _ _ _ hr
      refine ⟨fin h2, fun hb => h3 ?_⟩
      rcases hb.split with h | ⟨n, t', j', loc', hn, hb⟩ | ⟨u, r, h, -⟩
      · cases h with
        | array _ _ _ h => exact absurd rfl (h js)
        | object _ _ h => cases h
      · refine ⟨n, ?_, by rw [Nat.zero_add]; exact ⟨t', j', loc', hn, hb⟩⟩
        cases hn with | set _ _ _ _ _ h => exact (List.getElem?_eq_some_iff.1 h).1
      · cases h
    | _ => exact rejected hr
  | dict t =>
    rw [deser_dict] at hr
    cases j with
    | arr js =>
      obtain ⟨vs, hr⟩ := mapped hr
      obtain ⟨⟨n, h2⟩, h3⟩ := halts_all Q B segs js 0
        (fun i j hj => by rw [Nat.zero_add]; exact comp exc (.dict t js i j loc hj) (hcalm.item (List.mem_of_getElem? hj))) st q0 _ _ _ hr
      refine ⟨fin h2, fun hb => h3 ?_⟩
      rcases hb.split with h | ⟨n, t', j', loc', hn, hb⟩ | ⟨u, r, h, -⟩
      · cases h with
        | array _ _ _ h => exact absurd rfl (h js)
        | object _ _ h => cases h
      · refine ⟨n, ?_, by rw [Nat.zero_add]; exact ⟨t', j', loc', hn, hb⟩⟩
        cases hn with | dict _ _ _ _ _ h => exact (List.getElem?_eq_some_iff.1 h).1
      · cases h
    | _ => exact rejected hr
  | map o t =>
    rw [deser_map] at hr
    cases j with
    | obj ms =>
      obtain ⟨vs, hr⟩ := mapped hr
      obtain ⟨⟨n, h2⟩, h3⟩ := halts_entries Q B segs ms 0
        (fun i p hp => by rw [Nat.zero_add]; exact comp exc (.map o t ms i p loc hp) (hcalm.field (List.mem_of_getElem? hp))) st q0 _ _ _ hr
      refine ⟨fin h2, fun hb => h3 ?_⟩
      rcases hb.split with h | ⟨n, t', j', loc', hn, hb⟩ | ⟨u, r, h, -⟩
      · cases h with
        | array _ _ h => cases h
        | object _ _ _ h => exact absurd rfl (h ms)
      · refine ⟨n, ?_, by rw [Nat.zero_add]; exact ⟨t', j', loc', hn, hb⟩⟩
        cases hn with | map _ _ _ _ _ _ h => exact (List.getElem?_eq_some_iff.1 h).1
      · cases h
    | _ => exact rejected hr
  | tuple ts =>
    rw [deser_tuple] at hr
    cases j with
    | arr js =>
      simp only at hr
      split at hr
      · next hlen =>
        obtain ⟨vs, hr⟩ := mapped hr
        obtain ⟨⟨n, h2⟩, h3⟩ := halts_each Q B segs js ts 0
          (fun i t j ht hj => by rw [Nat.zero_add]; exact comp exc (.tuple ts js i t j loc ht hj) (hcalm.item (List.mem_of_getElem? hj))) _ st q0 _ _ _ hr
        refine ⟨fin h2, fun hb => h3 ?_⟩
        rcases hb.split with h | ⟨n, t', j', loc', hn, hb⟩ | ⟨u, r, h, -⟩
        · cases h with
          | array _ _ _ h => exact absurd rfl (h js)
          | object _ _ h => cases h
          | tupleLength _ _ h => exact absurd hlen h
        · refine ⟨n, ?_, ?_, by rw [Nat.zero_add]; exact ⟨t', j', loc', hn, hb⟩⟩
          · cases hn with | tuple _ _ _ _ _ _ _ h => exact (List.getElem?_eq_some_iff.1 h).1
          · cases hn with | tuple _ _ _ _ _ _ h _ => exact (List.getElem?_eq_some_iff.1 h).1
        · cases h
      · exact rejected hr
    | _ => exact rejected hr
  | variant ts =>
    rw [deser_variant] at hr
    by_cases hts : ts = []
    · subst hts
      exact rejected hr
    · obtain ⟨i, t, hch⟩ := chosen_exists env ts j hts
      have hmem := List.mem_of_getElem? hch.1
      have hlt := (List.getElem?_eq_some_iff.1 hch.1).1
      have hn : Nth env (.variant ts) j loc 0 t j loc := .variant ts j i t loc hch
      rw [tryAll_drop env root j loc segs i ts 0 st (fun k t' hk ht' st =>
        traceless_refused env root j t' (htame ts j .self k t' (by omega) ht') hcalm (hch.2.1 k t' hk ht')
          (ho.unmasked ts j .self t' (List.mem_of_getElem? ht') (htame ts j .self k t' (by omega) ht')) _ loc segs st)] at hr
      have hdrop : ts.drop i = t :: ts.drop (i + 1) := by
        have := List.drop_eq_getElem_cons hlt
        rw [(List.getElem?_eq_some_iff.1 hch.1).2] at this
        exact this
      rw [hdrop, tryAll] at hr
      cases h1 : deser env root j false t (env.fresh t) loc segs { st with next := st.next + wasted (ts.take i) } with
      | ub => rw [h1] at hr; cases hr
      | threw s e => rw [h1] at hr; cases hr
      | done ok1 w1 st1 =>
        obtain ⟨q1, b1⟩ := comp false hn hcalm { st with next := st.next + wasted (ts.take i) } q0 _ _ _ _ _ h1
        rw [h1] at hr
        cases ok1 with
        | true =>
          cases hr
          refine ⟨fin q1, fun hb => ?_⟩
          rcases hb.split with h | ⟨n, t', j', loc', hn', hb⟩ | ⟨u, r, h, -⟩
          · cases h with
            | array _ _ h => cases h
            | object _ _ h => cases h
            | noAlternative => exact absurd rfl hts
          · have : n = 0 := by cases hn'; rfl
            subst this
            exact b1 ⟨t', j', loc', hn', hb⟩
          · cases h
        | false =>
          have hlast : i + 1 = ts.length := by
            refine Decidable.byContradiction fun hne => ?_
            have hf := hch.2.2.resolve_left hne
            obtain ⟨v, st2, h⟩ := traceless_taken env hd root j t (htame ts j .self i t (by omega) hch.1) hcalm (htame.child hn.child) (hun.inner hn.inner)
              (ho.child hn.child).unmasked hf loc D { st with next := st.next + wasted (ts.take i) } hcov hclear false (env.fresh t) segs
            rw [h1] at h
            cases h
          rw [show ts.drop (i + 1) = [] by rw [hlast]; exact List.drop_length] at hr
          cases exc with
          | true => cases hr
          | false => cases hr; exact ⟨fin q1, fun _ => rfl⟩
  | cls c =>
    rw [deser_cls] at hr
    cases j with
    | obj ms =>
      obtain ⟨vs, hr⟩ := mapped hr
      obtain ⟨⟨n, h2⟩, -, h4⟩ := halts_members Q B segs (env.members c) 0 (fun n m hm => by
        rw [Nat.zero_add]
        refine ⟨fun _ st hq => hq.mono fun q u h => h.imp id fun ⟨k, t', j', loc', hk, h⟩ => ⟨k, t', j', loc', by omega, h⟩, fun i j hf => ?_⟩
        exact comp exc (.cls c ms n m i j loc hm hf) (hcalm.field (findMember_mem hf))) target.members true st q0 _ _ _ hr
      refine ⟨fin h2, fun hb => ?_⟩
      have hbroken : ∃ n m, (env.members c)[n]? = some m ∧ BrokenAt env root D c ms loc n m := by
        rcases hb.split with h | ⟨n, t', j', loc', hn, hb⟩ | ⟨u, r, h, -⟩
        · cases h with
          | array _ _ h => cases h
          | object _ _ _ h => exact absurd rfl (h ms)
          | missing _ _ m h1 h2 h3 =>
            obtain ⟨n, hn⟩ := List.mem_iff_getElem?.1 h1
            exact ⟨n, m, hn, .inr ⟨h2, h3⟩⟩
        · cases hn with | cls _ _ _ m i _ _ h h' => exact ⟨n, m, h, .inl ⟨i, _, h', hb⟩⟩
        · cases h
      obtain ⟨n, m, hm, hbm⟩ := hbroken
      have hlast : ∃ (n : Nat) (m : Member), (env.members c)[n]? = some m ∧ BrokenAt env root D c ms loc n m ∧
          ∀ (k : Nat) (m' : Member), n < k → (env.members c)[k]? = some m' → Irrelevant ms m' := by
        refine Classical.byContradiction fun hno => hmask (.here D c ms loc n m hm hbm fun n m hm hb => ?_)
        refine Classical.byContradiction fun hno' => hno ⟨n, m, hm, hb, fun k m' hk hm' => ?_⟩
        exact Classical.byContradiction fun h => hno' ⟨k, m', hk, hm', h⟩
      obtain ⟨n, m, hm, hbm, hl⟩ := hlast
      refine h4 n m hm ?_ hl
      rcases hbm with ⟨i, j, hf, hb⟩ | h
      · exact .inl ⟨⟨i, j, hf⟩, by rw [Nat.zero_add]; exact ⟨m.ty, j, i :: loc, .cls c ms n m i j loc hm hf, hb⟩⟩
      · exact .inr h
    | _ => exact rejected hr
  | uptr t =>
    rw [deser_uptr] at hr
    cases h1 : deser env root j exc t (env.ctor t) loc segs st with
    | ub => rw [h1] at hr; cases hr
    | threw s e => rw [h1] at hr; cases hr
    | done ok1 w1 st1 =>
      obtain ⟨q1, b1⟩ := comp exc (.uptr t j loc) hcalm st q0 _ _ _ _ _ h1
      rw [h1] at hr
      have hm : Breaks env root D (.uptr t) j loc → ok1 = false := by
        intro hb
        rcases hb.split with h | ⟨n, t', j', loc', hn', hb⟩ | ⟨u, r, h, -⟩
        · cases h with
          | array _ _ h => cases h
          | object _ _ h => cases h
        · have : n = 0 := by cases hn'; rfl
          subst this
          exact b1 ⟨t', j', loc', hn', hb⟩
        · cases h
      cases ok1 <;> cases hr <;> exact ⟨fin q1, hm⟩
  | sptr t =>
    rw [deser_sptr] at hr
    cases href : refMember j with
    | none =>
      rw [href] at hr
      simp only at hr
      have hn : Nth env (.sptr t) j loc 0 t j loc := .sptr t j loc href
      cases h1 : deser env root j exc t (env.ctor t) loc segs { st with next := st.next + 1 } with
      | ub => rw [h1] at hr; cases hr
      | threw s e => rw [h1] at hr; cases hr
      | done ok1 w1 st1 =>
        obtain ⟨q1, b1⟩ := comp exc hn hcalm { st with next := st.next + 1 } q0 _ _ _ _ _ h1
        rw [h1] at hr
        have hm : Breaks env root D (.sptr t) j loc → ok1 = false := by
          intro hb
          rcases hb.split with h | ⟨n, t', j', loc', hn', hb⟩ | ⟨u, r, h, h', -⟩
          · cases h with
            | array _ _ h => cases h
            | object _ _ h => cases h
          · have : n = 0 := by cases hn'; rfl
            subst this
            exact b1 ⟨t', j', loc', hn', hb⟩
          · rw [href] at h'; cases h'
        cases ok1 with
        | false => cases hr; exact ⟨fin q1, hm⟩
        | true =>
          cases hr
          refine ⟨fun q a u v hg => ?_, hm⟩
          rcases DState.get_put _ _ _ _ _ hg with hg | ⟨rfl, hx⟩
          · exact fin q1 q a u v hg
          · cases hx
            exact .inr (.here _ _ _ href)
    | some r =>
      rw [href] at hr
      simp only [readRef] at hr
      cases r with
      | str p =>
        simp only at hr
        cases h1 : pointerTokens env p with
        | none => rw [h1] at hr; cases hr
        | some toks =>
          rw [h1] at hr
          simp only at hr
          cases h2 : pointerGet root toks with
          | none => rw [h2] at hr; cases hr; exact ⟨fin q0, fun _ => rfl⟩
          | some q =>
            rw [h2] at hr
            simp only at hr
            cases hg : st.get q.reverse with
            | none => rw [hg] at hr; cases hr; exact ⟨fin q0, fun _ => rfl⟩
            | some x =>
              obtain ⟨a, u, v⟩ := x
              rw [hg] at hr
              simp only at hr
              split at hr
              · next hu =>
                subst hu
                cases hr
                refine ⟨fin q0, fun hb => ?_⟩
                rcases hb.split with h | ⟨n, t', j', loc', hn', hb⟩ | ⟨u', r, h, h', hbad⟩
                · cases h with
                  | array _ _ h => cases h
                  | object _ _ h => cases h
                · cases hn' with | sptr _ _ _ h => rw [href] at h; cases h
                · cases h
                  rw [href] at h'
                  cases h'
                  exact absurd (hcov _ _ _ _ hg) (hbad p toks q rfl h1 h2)
              · cases hr
      | _ => cases hr

end Verif.Core
