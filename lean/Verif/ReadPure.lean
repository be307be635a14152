import Verif.Containers

/-!
# Types without shared pointers

Reading a type without `std::shared_ptr` depends neither on the place of the node nor on the objects read
before.
-/

namespace Verif.Core

mutual
/-- The type contains no `std::shared_ptr` (outside of classes). -/
def Ty.unshared : Ty → Bool
  | .prim _ => true
  | .vec t => t.unshared
  | .arr _ t => t.unshared
  | .set t => t.unshared
  | .map _ t => t.unshared
  | .dict t => t.unshared
  | .tuple ts => Ty.unshareds ts
  | .variant ts => Ty.unshareds ts
  | .cls _ => true
  | .uptr t => t.unshared
  | .sptr _ => false

/-- No type of the list contains `std::shared_ptr`. -/
def Ty.unshareds : List Ty → Bool
  | [] => true
  | t :: ts => t.unshared && Ty.unshareds ts
end

/-- No class has a member with `std::shared_ptr`. -/
def Env.Unshared (env : Env) : Prop := ∀ c, ∀ m ∈ env.members c, m.ty.unshared = true

theorem Ty.unshareds_iff (ts : List Ty) : Ty.unshareds ts = true ↔ ∀ t ∈ ts, t.unshared = true := by
  induction ts with
  | nil => simp [Ty.unshareds]
  | cons t ts ih => simp [Ty.unshareds, ih]

/-! ## Induction -/

/-- Induction over documents, and for each document over types. -/
theorem lexInd {P : Json → Ty → Prop} (h : ∀ j t, (∀ j', sizeOf j' < sizeOf j → ∀ t', P j' t') → (∀ t', sizeOf t' < sizeOf t → P j t') → P j t) :
    ∀ j t, P j t := by
  intro j
  generalize hn : sizeOf j = n
  induction n using Nat.strongRecOn generalizing j with
  | ind n ih =>
    subst hn
    intro t
    generalize hk : sizeOf t = k
    induction k using Nat.strongRecOn generalizing t with
    | ind k ih' =>
      subst hk
      exact h j t (fun j' hj t' => ih (sizeOf j') hj j' rfl t') (fun t' ht => ih' (sizeOf t') ht t' rfl)

theorem size_item {j : Json} {js : List Json} (h : j ∈ js) : sizeOf j < sizeOf (Json.arr js) := by
  have := List.sizeOf_lt_of_mem h
  simp only [Json.arr.sizeOf_spec]
  omega

theorem size_field {p : Str × Json} {ms : List (Str × Json)} (h : p ∈ ms) : sizeOf p.2 < sizeOf (Json.obj ms) := by
  have h1 := List.sizeOf_lt_of_mem h
  have : sizeOf p = 1 + sizeOf p.1 + sizeOf p.2 := by cases p; rfl
  simp only [Json.obj.sizeOf_spec]
  omega

theorem size_alt {t : Ty} {ts : List Ty} (h : t ∈ ts) : sizeOf t < sizeOf (Ty.variant ts) := by
  have := List.sizeOf_lt_of_mem h
  simp only [Ty.variant.sizeOf_spec]
  omega

/-! ## Stateless readers -/

/-- Outcome of a reader without the table of shared objects. -/
inductive PRes (α : Type)
  | ub
  | threw (segs : List Seg) (e : Err)
  | done (ok : Bool) (a : α)

/-- Apply a function to what was read. -/
def PRes.map {α β : Type} (f : α → β) : PRes α → PRes β
  | .ub => .ub
  | .threw segs e => .threw segs e
  | .done ok a => .done ok (f a)

/-- The same outcome with a table. -/
def PRes.lift {α : Type} (st : DState) : PRes α → DRes α
  | .ub => .ub
  | .threw segs e => .threw segs e
  | .done ok a => .done ok a st

/-- The outcome without its table. -/
def DRes.strip {α : Type} : DRes α → PRes α
  | .ub => .ub
  | .threw segs e => .threw segs e
  | .done ok a _ => .done ok a

/-- A failed check. -/
def PRes.reject {α : Type} (exc : Bool) (segs : List Seg) (e : Err) (target : α) : PRes α :=
  if exc then .threw segs e else .done false target

theorem PRes.lift_ub {α : Type} (st : DState) : (PRes.ub : PRes α).lift st = .ub := rfl

theorem PRes.lift_threw {α : Type} (st : DState) (s : List Seg) (e : Err) : (PRes.threw s e : PRes α).lift st = .threw s e := rfl

theorem PRes.lift_done {α : Type} (st : DState) (ok : Bool) (a : α) : (PRes.done ok a).lift st = .done ok a st := rfl

@[simp] theorem PRes.strip_lift {α : Type} (st : DState) (r : PRes α) : (r.lift st).strip = r := by cases r <;> rfl

theorem PRes.lift_map {α β : Type} (f : α → β) (st : DState) (r : PRes α) : (r.lift st).map f = (r.map f).lift st := by cases r <;> rfl

theorem PRes.lift_reject {α : Type} (exc : Bool) (segs : List Seg) (e : Err) (target : α) (st : DState) :
    DRes.reject exc segs e target st = (PRes.reject exc segs e target).lift st := by
  cases exc <;> rfl

/-- `deser` on a document that is its own root, with an empty table. -/
def pd (env : Env) (j : Json) (exc : Bool) (t : Ty) (target : Val) (segs : List Seg) : PRes Val :=
  (deser env .null j exc t target [] segs ⟨[], 0⟩).strip

/-- `runSame` on documents. -/
def pSame (env : Env) (t : Ty) (exc : Bool) : List Json → Nat → List Seg → PRes (List Val)
  | [], _, _ => .done true []
  | j :: js, k, segs =>
      match pd env j exc t (env.fresh t) (.index k :: segs) with
      | .ub => .ub
      | .threw s e => .threw s e
      | .done false _ => .done false []
      | .done true v => (pSame env t exc js (k + 1) segs).map (v :: ·)

/-- `runTuple` on documents. -/
def pTuple (env : Env) (exc : Bool) : List Json → List Ty → List Val → Nat → List Seg → PRes (List Val)
  | j :: js, t :: ts, targets, k, segs =>
      match pd env j exc t (targets.headD (env.fresh t)) (.index k :: segs) with
      | .ub => .ub
      | .threw s e => .threw s e
      | .done false v => .done false (v :: targets.tail)
      | .done true v => (pTuple env exc js ts targets.tail (k + 1) segs).map (v :: ·)
  | _, _, _, _, _ => .done true []

/-- `runEntries` on documents. -/
def pEntries (env : Env) (t : Ty) (exc : Bool) : List (Str × Json) → List Seg → PRes (List (Str × Val))
  | [], _ => .done true []
  | (key, j) :: ms, segs =>
      match pd env j exc t (env.fresh t) (Seg.name (cstr key) :: segs) with
      | .ub => .ub
      | .threw s e => .threw s e
      | .done false _ => .done false []
      | .done true v => (pEntries env t exc ms segs).map ((cstr key, v) :: ·)

/-- `runMembers` on documents. -/
def pMembers (env : Env) (exc : Bool) (fs : List (Str × Json)) (segs : List Seg) : List Member → List Val → Bool → PRes (List Val)
  | [], _, res => .done res []
  | m :: ms, targets, res =>
      let target := targets.headD (env.fresh m.ty)
      match findMember m.name fs with
      | some (_, j) =>
          (match pd env j exc m.ty (if m.kind = .optional then env.fresh m.ty else target) (Seg.name (cstr m.name) :: segs) with
          | .ub => .ub
          | .threw s e => .threw s e
          | .done ok v => (pMembers env exc fs segs ms targets.tail ok).map ((if m.kind = .optional then .present v else v) :: ·))
      | none =>
          match m.kind with
          | .optional => (pMembers env exc fs segs ms targets.tail res).map (.absent :: ·)
          | .default => (pMembers env exc fs segs ms targets.tail res).map (target :: ·)
          | .required =>
              if exc then .threw segs (.missing m.name)
              else (pMembers env exc fs segs ms targets.tail false).map (target :: ·)

/-- `tryAll` on a document. -/
def pAll (env : Env) (j : Json) : List Ty → Nat → List Seg → PRes Val
  | [], _, _ => .done false .nullptr
  | t :: ts, i, segs =>
      match pd env j false t (env.fresh t) segs with
      | .ub => .ub
      | .threw s e => .threw s e
      | .done true v => .done true (.alt i v)
      | .done false _ => pAll env j ts (i + 1) segs

/-- Reading `j` as `t` depends neither on the place nor on the table. -/
def Free (env : Env) (j : Json) (t : Ty) : Prop :=
  ∀ exc target segs root loc st, deser env root j exc t target loc segs st = (pd env j exc t target segs).lift st

theorem runSame_free (env : Env) (root : Json) (t : Ty) (exc : Bool) (js : List Json) (h : ∀ j ∈ js, Free env j t) :
    ∀ k loc segs st, runSame env t exc (js.map (deser env root)) k loc segs st = (pSame env t exc js k segs).lift st := by
  induction js with
  | nil => intro k loc segs st; rfl
  | cons j js ih =>
    intro k loc segs st
    simp only [List.map_cons, runSame, pSame]
    rw [h j (by simp)]
    cases hp : pd env j exc t (env.fresh t) (.index k :: segs) with
    | ub => rfl
    | threw s e => rfl
    | done ok v =>
      cases ok with
      | false => rfl
      | true => simp only [PRes.lift_done, ih (fun j hj => h j (by simp [hj])), PRes.lift_map]

theorem runTuple_free (env : Env) (root : Json) (exc : Bool) (js : List Json) :
    ∀ ts, (∀ j ∈ js, ∀ t ∈ ts, Free env j t) → ∀ targets k loc segs st,
      runTuple env exc (js.map (deser env root)) ts targets k loc segs st = (pTuple env exc js ts targets k segs).lift st := by
  induction js with
  | nil => intro ts h targets k loc segs st; cases ts <;> rfl
  | cons j js ih =>
    intro ts h targets k loc segs st
    cases ts with
    | nil => rfl
    | cons t ts =>
      simp only [List.map_cons, runTuple, pTuple]
      rw [h j (by simp) t (by simp)]
      cases hp : pd env j exc t (targets.headD (env.fresh t)) (.index k :: segs) with
      | ub => rfl
      | threw s e => rfl
      | done ok v =>
        cases ok with
        | false => rfl
        | true => simp only [PRes.lift_done, ih ts (fun j hj t ht => h j (by simp [hj]) t (by simp [ht])), PRes.lift_map]

theorem runEntries_free (env : Env) (root : Json) (t : Ty) (exc : Bool) (ms : List (Str × Json)) (h : ∀ p ∈ ms, Free env p.2 t) :
    ∀ k loc segs st, runEntries env t exc (ms.map fun p => (p.1, deser env root p.2)) k loc segs st = (pEntries env t exc ms segs).lift st := by
  induction ms with
  | nil => intro k loc segs st; rfl
  | cons p ms ih =>
    obtain ⟨key, j⟩ := p
    intro k loc segs st
    simp only [List.map_cons, runEntries, pEntries]
    rw [h (key, j) (by simp)]
    cases hp : pd env j exc t (env.fresh t) (Seg.name (cstr key) :: segs) with
    | ub => rfl
    | threw s e => rfl
    | done ok v =>
      cases ok with
      | false => rfl
      | true => simp only [PRes.lift_done, ih (fun j hj => h j (by simp [hj])), PRes.lift_map]

theorem runMembers_free (env : Env) (root : Json) (exc : Bool) (fs : List (Str × Json)) (loc : Loc) (segs : List Seg) (ms : List Member)
    (h : ∀ p ∈ fs, ∀ m ∈ ms, Free env p.2 m.ty) :
    ∀ targets res st, runMembers env exc (fs.map fun p => (p.1, deser env root p.2)) loc segs ms targets res st =
      (pMembers env exc fs segs ms targets res).lift st := by
  induction ms with
  | nil => intro targets res st; rfl
  | cons m ms ih =>
    intro targets res st
    have ih' := ih (fun p hp m' hm => h p hp m' (by simp [hm]))
    simp only [runMembers, pMembers, findMember_map]
    cases hf : findMember m.name fs with
    | none =>
      simp only [Option.map_none]
      cases m.kind with
      | required => cases exc <;> simp [ih', PRes.lift_map, PRes.lift_threw]
      | optional => simp [ih', PRes.lift_map]
      | default => simp [ih', PRes.lift_map]
    | some q =>
      obtain ⟨i, j⟩ := q
      simp only [Option.map_some]
      rw [h (m.name, j) (findMember_mem hf) m (by simp)]
      cases pd env j exc m.ty _ _ with
      | ub => rfl
      | threw s e => rfl
      | done ok v => simp only [PRes.lift_done, ih', PRes.lift_map]

theorem tryAll_free (env : Env) (root j : Json) (ts : List Ty) (h : ∀ t ∈ ts, Free env j t) :
    ∀ i loc segs st, tryAll env root j ts i loc segs st = (pAll env j ts i segs).lift st := by
  induction ts with
  | nil => intro i loc segs st; rfl
  | cons t ts ih =>
    intro i loc segs st
    simp only [tryAll, pAll]
    rw [h t (by simp)]
    cases pd env j false t (env.fresh t) segs with
    | ub => rfl
    | threw s e => rfl
    | done ok v =>
      cases ok with
      | false => simp only [PRes.lift_done, ih (fun t ht => h t (by simp [ht]))]
      | true => rfl

theorem Free.of {env : Env} {j : Json} {t : Ty}
    (h : ∀ exc target segs, ∃ r : PRes Val, ∀ root loc st, deser env root j exc t target loc segs st = r.lift st) : Free env j t := by
  intro exc target segs root loc st
  obtain ⟨r, hr⟩ := h exc target segs
  rw [hr, pd, hr, PRes.strip_lift]

theorem free (env : Env) (hu : env.Unshared) : ∀ j t, t.unshared = true → Free env j t := by
  apply lexInd
  intro j t ihj iht ht
  apply Free.of
  intro exc target segs
  cases t with
  | prim p =>
    refine ⟨match desPrim env p j with
      | .ub => .ub
      | .reject e => .reject exc segs e (spoil p j target)
      | .ok pv => .done true (.prim pv), fun root loc st => ?_⟩
    rw [deser_prim]
    cases desPrim env p j with
    | ub => rfl
    | reject e => exact PRes.lift_reject ..
    | ok pv => rfl
  | vec t =>
    cases j with
    | arr js =>
      refine ⟨(pSame env t exc js 0 segs).map .seq, fun root loc st => ?_⟩
      rw [deser_vec]
      simp only
      rw [runSame_free env root t exc js (fun j hj => ihj j (size_item hj) t ht), PRes.lift_map]
    | _ => exact ⟨_, fun root loc st => by rw [deser_vec]; exact PRes.lift_reject ..⟩
  | arr n t =>
    cases j with
    | arr js =>
      by_cases hl : js.length = n
      · cases hr : pSame env t exc js 0 segs with
        | ub =>
          refine ⟨.ub, fun root loc st => ?_⟩
          rw [deser_arr]
          simp only [hl, if_true]
          rw [runSame_free env root t exc js (fun j hj => ihj j (size_item hj) t ht), hr]
          rfl
        | threw s e =>
          refine ⟨.threw s e, fun root loc st => ?_⟩
          rw [deser_arr]
          simp only [hl, if_true]
          rw [runSame_free env root t exc js (fun j hj => ihj j (size_item hj) t ht), hr]
          rfl
        | done ok vs =>
          refine ⟨if ok then .done true (.tup vs) else .done false target, fun root loc st => ?_⟩
          rw [deser_arr]
          simp only [hl, if_true]
          rw [runSame_free env root t exc js (fun j hj => ihj j (size_item hj) t ht), hr]
          cases ok <;> rfl
      · exact ⟨_, fun root loc st => by rw [deser_arr]; simp only [hl, if_false]; exact PRes.lift_reject ..⟩
    | _ => exact ⟨_, fun root loc st => by rw [deser_arr]; exact PRes.lift_reject ..⟩
  | set t =>
    cases j with
    | arr js =>
      refine ⟨(pSame env t exc js 0 segs).map fun vs => .set (setOf env.less vs), fun root loc st => ?_⟩
      rw [deser_set]
      simp only
      rw [runSame_free env root t exc js (fun j hj => ihj j (size_item hj) t ht), PRes.lift_map]
    | _ => exact ⟨_, fun root loc st => by rw [deser_set]; exact PRes.lift_reject ..⟩
  | map o t =>
    cases j with
    | obj ms =>
      refine ⟨(pEntries env t exc ms segs).map fun kvs => .map (mapOf kvs), fun root loc st => ?_⟩
      rw [deser_map]
      simp only
      rw [runEntries_free env root t exc ms (fun p hp => ihj p.2 (size_field hp) t ht), PRes.lift_map]
    | _ => exact ⟨_, fun root loc st => by rw [deser_map]; exact PRes.lift_reject ..⟩
  | dict t =>
    cases j with
    | arr js =>
      refine ⟨(pSame env (.tuple [.prim .str, t]) exc js 0 segs).map fun vs => .dict (vs.map dictEntry), fun root loc st => ?_⟩
      rw [deser_dict]
      simp only
      rw [runSame_free env root _ exc js (fun j hj => ihj j (size_item hj) _ (by simpa [Ty.unshared, Ty.unshareds] using ht)), PRes.lift_map]
    | _ => exact ⟨_, fun root loc st => by rw [deser_dict]; exact PRes.lift_reject ..⟩
  | tuple ts =>
    cases j with
    | arr js =>
      by_cases hl : js.length = ts.length
      · refine ⟨(pTuple env exc js ts target.components 0 segs).map .tup, fun root loc st => ?_⟩
        rw [deser_tuple]
        simp only [hl, if_true]
        rw [runTuple_free env root exc js ts (fun j hj t ht' => ihj j (size_item hj) t ((Ty.unshareds_iff ts).1 ht t ht')), PRes.lift_map]
      · exact ⟨_, fun root loc st => by rw [deser_tuple]; simp only [hl, if_false]; exact PRes.lift_reject ..⟩
    | _ => exact ⟨_, fun root loc st => by rw [deser_tuple]; exact PRes.lift_reject ..⟩
  | variant ts =>
    have hr := fun root => tryAll_free env root j ts (fun t ht' => iht t (size_alt ht') ((Ty.unshareds_iff ts).1 ht t ht'))
    cases hp : pAll env j ts 0 segs with
    | ub => exact ⟨.ub, fun root loc st => by rw [deser_variant, hr, hp]; rfl⟩
    | threw s e => exact ⟨.threw s e, fun root loc st => by rw [deser_variant, hr, hp]; rfl⟩
    | done ok v =>
      cases ok with
      | true => exact ⟨.done true v, fun root loc st => by rw [deser_variant, hr, hp]; rfl⟩
      | false => exact ⟨_, fun root loc st => by rw [deser_variant, hr, hp]; exact PRes.lift_reject ..⟩
  | cls c =>
    cases j with
    | obj ms =>
      refine ⟨(pMembers env exc ms segs (env.members c) target.members true).map .obj, fun root loc st => ?_⟩
      rw [deser_cls]
      simp only
      rw [runMembers_free env root exc ms loc segs (env.members c) (fun p hp m hm => ihj p.2 (size_field hp) m.ty (hu c m hm)), PRes.lift_map]
    | _ => exact ⟨_, fun root loc st => by rw [deser_cls]; exact PRes.lift_reject ..⟩
  | uptr t =>
    have hr := iht t (by simp) ht
    cases hp : pd env j exc t (env.ctor t) segs with
    | ub => exact ⟨.ub, fun root loc st => by rw [deser_uptr, hr, hp]; rfl⟩
    | threw s e => exact ⟨.threw s e, fun root loc st => by rw [deser_uptr, hr, hp]; rfl⟩
    | done ok v =>
      cases ok with
      | true => exact ⟨.done true (.uptr v), fun root loc st => by rw [deser_uptr, hr, hp]; rfl⟩
      | false => exact ⟨.done false target, fun root loc st => by rw [deser_uptr, hr, hp]; rfl⟩
  | sptr t => simp [Ty.unshared] at ht

/-! ## Equations -/

section
variable (env : Env) (hu : env.Unshared) (exc : Bool) (target : Val) (segs : List Seg)

theorem pd_of {j : Json} {exc : Bool} {t : Ty} {target : Val} {segs : List Seg} {r : PRes Val}
    (h : deser env .null j exc t target [] segs ⟨[], 0⟩ = r.lift ⟨[], 0⟩) : pd env j exc t target segs = r := by
  rw [pd, h, PRes.strip_lift]

theorem pd_prim (j : Json) (p : Prim) : pd env j exc (.prim p) target segs =
    match desPrim env p j with
    | .ub => .ub
    | .reject e => .reject exc segs e (spoil p j target)
    | .ok pv => .done true (.prim pv) := by
  apply pd_of
  rw [deser_prim]
  cases desPrim env p j with
  | ub => rfl
  | reject e => exact PRes.lift_reject ..
  | ok pv => rfl

include hu

theorem pd_vec (js : List Json) (t : Ty) (ht : t.unshared = true) :
    pd env (.arr js) exc (.vec t) target segs = (pSame env t exc js 0 segs).map .seq := by
  apply pd_of
  rw [deser_vec]
  simp only
  rw [runSame_free env _ t exc js (fun j _ => free env hu j t ht), PRes.lift_map]

theorem pd_arr (js : List Json) (n : Nat) (t : Ty) (ht : t.unshared = true) :
    pd env (.arr js) exc (.arr n t) target segs =
      if js.length = n then
        match pSame env t exc js 0 segs with
        | .ub => .ub
        | .threw s e => .threw s e
        | .done true vs => .done true (.tup vs)
        | .done false _ => .done false target
      else .reject exc segs (.sizeMismatch n js.length) target := by
  apply pd_of
  rw [deser_arr]
  simp only
  rw [runSame_free env _ t exc js (fun j _ => free env hu j t ht)]
  split
  · cases pSame env t exc js 0 segs with
    | ub => rfl
    | threw s e => rfl
    | done ok vs => cases ok <;> rfl
  · exact PRes.lift_reject ..

theorem pd_set (js : List Json) (t : Ty) (ht : t.unshared = true) :
    pd env (.arr js) exc (.set t) target segs = (pSame env t exc js 0 segs).map fun vs => .set (setOf env.less vs) := by
  apply pd_of
  rw [deser_set]
  simp only
  rw [runSame_free env _ t exc js (fun j _ => free env hu j t ht), PRes.lift_map]

theorem pd_map (ms : List (Str × Json)) (o : Bool) (t : Ty) (ht : t.unshared = true) :
    pd env (.obj ms) exc (.map o t) target segs = (pEntries env t exc ms segs).map fun kvs => .map (mapOf kvs) := by
  apply pd_of
  rw [deser_map]
  simp only
  rw [runEntries_free env _ t exc ms (fun p _ => free env hu p.2 t ht), PRes.lift_map]

theorem pd_dict (js : List Json) (t : Ty) (ht : t.unshared = true) :
    pd env (.arr js) exc (.dict t) target segs = (pSame env (.tuple [.prim .str, t]) exc js 0 segs).map fun vs => .dict (vs.map dictEntry) := by
  apply pd_of
  rw [deser_dict]
  simp only
  rw [runSame_free env _ _ exc js (fun j _ => free env hu j _ (by simpa [Ty.unshared, Ty.unshareds] using ht)), PRes.lift_map]

theorem pd_tuple (js : List Json) (ts : List Ty) (ht : Ty.unshareds ts = true) :
    pd env (.arr js) exc (.tuple ts) target segs =
      if js.length = ts.length then (pTuple env exc js ts target.components 0 segs).map .tup
      else .reject exc segs (.sizeMismatch ts.length js.length) target := by
  apply pd_of
  rw [deser_tuple]
  simp only
  rw [runTuple_free env _ exc js ts (fun j _ t ht' => free env hu j t ((Ty.unshareds_iff ts).1 ht t ht'))]
  split
  · rw [PRes.lift_map]
  · exact PRes.lift_reject ..

theorem pd_cls (ms : List (Str × Json)) (c : Nat) :
    pd env (.obj ms) exc (.cls c) target segs = (pMembers env exc ms segs (env.members c) target.members true).map .obj := by
  apply pd_of
  rw [deser_cls]
  simp only
  rw [runMembers_free env _ exc ms [] segs (env.members c) (fun p _ m hm => free env hu p.2 m.ty (hu c m hm)), PRes.lift_map]

theorem pd_uptr (j : Json) (t : Ty) (ht : t.unshared = true) :
    pd env j exc (.uptr t) target segs =
      match pd env j exc t (env.ctor t) segs with
      | .ub => .ub
      | .threw s e => .threw s e
      | .done true v => .done true (.uptr v)
      | .done false _ => .done false target := by
  apply pd_of
  rw [deser_uptr, free env hu j t ht]
  cases pd env j exc t (env.ctor t) segs with
  | ub => rfl
  | threw s e => rfl
  | done ok v => cases ok <;> rfl

theorem pd_variant (j : Json) (ts : List Ty) (ht : Ty.unshareds ts = true) :
    pd env j exc (.variant ts) target segs =
      match pAll env j ts 0 segs with
      | .ub => .ub
      | .threw s e => .threw s e
      | .done true v => .done true v
      | .done false _ => .reject exc segs .noAlternative target := by
  apply pd_of
  rw [deser_variant, tryAll_free env _ j ts (fun t ht' => free env hu j t ((Ty.unshareds_iff ts).1 ht t ht'))]
  cases pAll env j ts 0 segs with
  | ub => rfl
  | threw s e => rfl
  | done ok v =>
    cases ok with
    | true => rfl
    | false => exact PRes.lift_reject ..

end

/-- Types that are read from arrays, and those read from objects. -/
theorem pd_not_arr (env : Env) (exc : Bool) (target : Val) (segs : List Seg) (j : Json) (t : Ty) (hj : ∀ js, j ≠ .arr js)
    (ht : (∃ t', t = .vec t') ∨ (∃ n t', t = .arr n t') ∨ (∃ t', t = .set t') ∨ (∃ t', t = .dict t') ∨ ∃ ts, t = .tuple ts) :
    pd env j exc t target segs = .reject exc segs .expectedArray target := by
  apply pd_of
  rcases ht with ⟨t', rfl⟩ | ⟨n, t', rfl⟩ | ⟨t', rfl⟩ | ⟨t', rfl⟩ | ⟨ts, rfl⟩
  · rw [deser_vec]; cases j <;> first | exact absurd rfl (hj _) | exact PRes.lift_reject ..
  · rw [deser_arr]; cases j <;> first | exact absurd rfl (hj _) | exact PRes.lift_reject ..
  · rw [deser_set]; cases j <;> first | exact absurd rfl (hj _) | exact PRes.lift_reject ..
  · rw [deser_dict]; cases j <;> first | exact absurd rfl (hj _) | exact PRes.lift_reject ..
  · rw [deser_tuple]; cases j <;> first | exact absurd rfl (hj _) | exact PRes.lift_reject ..

theorem pd_not_obj (env : Env) (exc : Bool) (target : Val) (segs : List Seg) (j : Json) (t : Ty) (hj : ∀ ms, j ≠ .obj ms)
    (ht : (∃ o t', t = .map o t') ∨ ∃ c, t = .cls c) :
    pd env j exc t target segs = .reject exc segs .expectedObject target := by
  apply pd_of
  rcases ht with ⟨o, t', rfl⟩ | ⟨c, rfl⟩
  · rw [deser_map]; cases j <;> first | exact absurd rfl (hj _) | exact PRes.lift_reject ..
  · rw [deser_cls]; cases j <;> first | exact absurd rfl (hj _) | exact PRes.lift_reject ..

/-- The two entry points in terms of `pd`. -/
theorem deserializeBool_pd (env : Env) (hu : env.Unshared) (t : Ty) (ht : t.unshared = true) (root : Json) (target : Val) (next : Nat) :
    deserializeBool env t root target next =
      match pd env root false t target [] with
      | .ub => none
      | .threw _ _ => none
      | .done ok v => some (ok, v) := by
  rw [deserializeBool, free env hu root t ht]
  cases pd env root false t target [] <;> rfl

theorem deserializeThrow_pd (env : Env) (hu : env.Unshared) (t : Ty) (ht : t.unshared = true) (root : Json) (next : Nat) :
    deserializeThrow env t root next =
      match pd env root true t (env.fresh t) [] with
      | .ub => .ub
      | .threw segs e => .threw (pathStr segs) e
      | .done _ v => .returned v := by
  rw [deserializeThrow, free env hu root t ht]
  cases pd env root true t (env.fresh t) [] <;> rfl

end Verif.Core
