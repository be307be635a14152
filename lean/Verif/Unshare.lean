import Verif.ReadShared
import Verif.ReadMore
import Verif.Rename

/-!
# Shared pointers without references

The parser knows no references, and the documents for the DOM reader may have none. Then `std::shared_ptr` is read like `std::unique_ptr`,
and every pointer gets an object of its own.
-/

namespace Verif.Core

mutual
/-- The value with `std::unique_ptr` in place of `std::shared_ptr`. -/
def Val.lower : Val → Val
  | .seq vs => .seq (lowerVals vs)
  | .tup vs => .tup (lowerVals vs)
  | .set vs => .set (lowerVals vs)
  | .map kvs => .map (lowerEntries kvs)
  | .dict kvs => .dict (lowerEntries kvs)
  | .alt i v => .alt i v.lower
  | .obj vs => .obj (lowerVals vs)
  | .present v => .present v.lower
  | .uptr v => .uptr v.lower
  | .sptr _ v => .uptr v.lower
  | .prim p => .prim p
  | .absent => .absent
  | .nullptr => .nullptr

/-- `Val.lower` for lists. -/
def lowerVals : List Val → List Val
  | [] => []
  | v :: vs => v.lower :: lowerVals vs

/-- `Val.lower` for the values of maps. -/
def lowerEntries : List (Str × Val) → List (Str × Val)
  | [] => []
  | (k, v) :: kvs => (k, v.lower) :: lowerEntries kvs
end

/-- The values that the environment provides have no shared objects (default-constructed pointers are null, of either kind), and `std::less` of set elements
does not look at addresses: there are no sets of pointers. -/
structure Env.Bare (env : Env) : Prop where
  fresh : ∀ t, env.fresh t.lower = env.fresh t
  fresh_none : ∀ t, addrs (env.fresh t) = []
  ctor : ∀ t, env.ctor t.lower = env.ctor t
  ctor_none : ∀ t, addrs (env.ctor t) = []
  less : ∀ v w, env.less v.lower w.lower = env.less v w

/-! ## The function `lower` -/

theorem lowerVals_eq (vs : List Val) : lowerVals vs = vs.map Val.lower := by
  induction vs with
  | nil => rfl
  | cons v vs ih => simp [lowerVals, ih]

theorem lowerEntries_eq (kvs : List (Str × Val)) : lowerEntries kvs = kvs.map fun p => (p.1, p.2.lower) := by
  induction kvs with
  | nil => rfl
  | cons p kvs ih => obtain ⟨k, v⟩ := p; simp [lowerEntries, ih]

mutual
theorem lower_plain : ∀ v : Val, addrs v = [] → v.lower = v
  | .prim _, _ => rfl
  | .seq vs, h => by simp only [addrs] at h; simp only [Val.lower, lowerVals_plain vs h]
  | .tup vs, h => by simp only [addrs] at h; simp only [Val.lower, lowerVals_plain vs h]
  | .set vs, h => by simp only [addrs] at h; simp only [Val.lower, lowerVals_plain vs h]
  | .map kvs, h => by simp only [addrs] at h; simp only [Val.lower, lowerEntries_plain kvs h]
  | .dict kvs, h => by simp only [addrs] at h; simp only [Val.lower, lowerEntries_plain kvs h]
  | .alt i v, h => by simp only [addrs] at h; simp only [Val.lower, lower_plain v h]
  | .obj vs, h => by simp only [addrs] at h; simp only [Val.lower, lowerVals_plain vs h]
  | .absent, _ => rfl
  | .present v, h => by simp only [addrs] at h; simp only [Val.lower, lower_plain v h]
  | .nullptr, _ => rfl
  | .uptr v, h => by simp only [addrs] at h; simp only [Val.lower, lower_plain v h]
  | .sptr _ _, h => by simp [addrs] at h

theorem lowerVals_plain : ∀ vs : List Val, addrsAll vs = [] → lowerVals vs = vs
  | [], _ => rfl
  | v :: vs, h => by
    simp only [addrsAll, List.append_eq_nil_iff] at h
    simp only [lowerVals, lower_plain v h.1, lowerVals_plain vs h.2]

theorem lowerEntries_plain : ∀ kvs : List (Str × Val), addrsVals kvs = [] → lowerEntries kvs = kvs
  | [], _ => rfl
  | (k, v) :: kvs, h => by
    simp only [addrsVals, List.append_eq_nil_iff] at h
    simp only [lowerEntries, lower_plain v h.1, lowerEntries_plain kvs h.2]
end

theorem Env.Bare.fresh_lower {env : Env} (h : env.Bare) (t : Ty) : (env.fresh t).lower = env.fresh t := lower_plain _ (h.fresh_none t)
theorem Env.Bare.ctor_lower {env : Env} (h : env.Bare) (t : Ty) : (env.ctor t).lower = env.ctor t := lower_plain _ (h.ctor_none t)

theorem Env.Bare.lower_fresh {env : Env} (h : env.Bare) (t : Ty) : (env.fresh t).lower = env.lower.fresh t.lower := (h.fresh_lower t).trans (h.fresh t).symm
theorem Env.Bare.lower_ctor {env : Env} (h : env.Bare) (t : Ty) : (env.ctor t).lower = env.lower.ctor t.lower := (h.ctor_lower t).trans (h.ctor t).symm

theorem headD_lower (targets : List Val) (v : Val) (hv : v.lower = v) : (targets.map Val.lower).headD v = (targets.headD v).lower := by
  cases targets with
  | nil => exact hv.symm
  | cons => rfl

theorem getD_lower (vs : List Val) (i : Nat) (v : Val) (hv : v.lower = v) : (vs.map Val.lower).getD i v = (vs.getD i v).lower := by
  simp only [List.getD_eq_getElem?_getD, List.getElem?_map]
  cases vs[i]? with
  | none => exact hv.symm
  | some w => rfl

theorem setInsert_lower (less : Val → Val → Bool) (hl : ∀ v w, less v.lower w.lower = less v w) (x : Val) (vs : List Val) :
    setInsert less x.lower (vs.map Val.lower) = (setInsert less x vs).map Val.lower := by
  induction vs with
  | nil => rfl
  | cons v vs ih =>
    simp only [List.map_cons, setInsert, hl, ih]
    split
    · rfl
    · split <;> rfl

theorem setFold_lower (less : Val → Val → Bool) (hl : ∀ v w, less v.lower w.lower = less v w) (vs : List Val) : ∀ us : List Val,
    (vs.map Val.lower).foldl (fun s v => setInsert less v s) (us.map Val.lower) = (vs.foldl (fun s v => setInsert less v s) us).map Val.lower := by
  induction vs with
  | nil => intro us; rfl
  | cons v vs ih => intro us; simp only [List.map_cons, List.foldl_cons, setInsert_lower less hl, ih]

theorem mapAssign_lower (k : Str) (v : Val) (kvs : List (Str × Val)) :
    mapAssign k v.lower (kvs.map fun p => (p.1, p.2.lower)) = (mapAssign k v kvs).map fun p => (p.1, p.2.lower) := by
  induction kvs with
  | nil => rfl
  | cons p kvs ih =>
    obtain ⟨k', v'⟩ := p
    simp only [List.map_cons, mapAssign, ih]
    split
    · rfl
    · split <;> rfl

theorem mapFold_lower (ps : List (Str × Val)) : ∀ kvs : List (Str × Val),
    (ps.map fun p => (p.1, p.2.lower)).foldl (fun s p => mapAssign p.1 p.2 s) (kvs.map fun p => (p.1, p.2.lower)) =
      (ps.foldl (fun s p => mapAssign p.1 p.2 s) kvs).map fun p => (p.1, p.2.lower) := by
  induction ps with
  | nil => intro us; rfl
  | cons v vs ih => intro us; simp only [List.map_cons, List.foldl_cons, mapAssign_lower, ih]

theorem dictEntry_lower (v : Val) : dictEntry v.lower = ((dictEntry v).1, (dictEntry v).2.lower) := by
  cases v with
  | tup vs =>
    match vs with
    | [] => rfl
    | [a] =>
      cases a with
      | prim p => cases p <;> rfl
      | _ => rfl
    | [a, b] =>
      cases a with
      | prim p => cases p <;> rfl
      | _ => rfl
    | a :: _ :: _ :: _ =>
      cases a with
      | prim p => cases p <;> rfl
      | _ => rfl
  | _ => rfl

theorem members_lower (v : Val) : v.lower.members = v.members.map Val.lower := by
  cases v <;> simp [Val.lower, Val.members, lowerVals_eq]

theorem components_lower (v : Val) : v.lower.components = v.components.map Val.lower := by
  cases v <;> simp [Val.lower, Val.components, lowerVals_eq]

theorem elements_lower (v : Val) : v.lower.elements = v.elements.map Val.lower := by
  cases v <;> simp [Val.lower, Val.elements, lowerVals_eq]

theorem entries_lower (v : Val) : v.lower.entries = v.entries.map fun p => (p.1, p.2.lower) := by
  cases v <;> simp [Val.lower, Val.entries, lowerEntries_eq]

theorem lookup_lower (k : Str) (kvs : List (Str × Val)) : (kvs.map fun p => (p.1, p.2.lower)).lookup k = (kvs.lookup k).map Val.lower := by
  induction kvs with
  | nil => rfl
  | cons p kvs ih =>
    obtain ⟨k', v⟩ := p
    simp only [List.map_cons, List.lookup_cons]
    cases k == k'
    · exact ih
    · rfl

/-! ## The parser -/

/-- The same outcome for unique pointers. -/
inductive Means.Lowered {α : Type} (g : α → α) : Means α → Means α → Prop
  | ub : Means.Lowered g .ub .ub
  | no : Means.Lowered g .no .no
  | yes (a : α) (n n' : Nat) : Means.Lowered g (.yes a n) (.yes (g a) n')

theorem Means.Lowered.map {α β : Type} {g : α → α} {h : β → β} {r r' : Means α} (hr : Means.Lowered g r r') {k k' : α → β}
    (hk : ∀ a, k' (g a) = h (k a)) : Means.Lowered h (r.map k) (r'.map k') := by
  cases hr with
  | ub => exact .ub
  | no => exact .no
  | yes a n n' => simp only [Means.map, hk]; exact .yes _ _ _

theorem Means.Lowered.bind {α β : Type} {g : α → α} {h : β → β} {r r' : Means α} (hr : Means.Lowered g r r') {k k' : α → Nat → Means β}
    (hk : ∀ a n n', Means.Lowered h (k a n) (k' (g a) n')) : Means.Lowered h (r.bind k) (r'.bind k') := by
  cases hr with
  | ub => exact .ub
  | no => exact .no
  | yes a n n' => exact hk a n n'

section
variable (env : Env) (hb : env.Bare)

/-- What is to be shown for the meaning of one node. -/
def MFnLowered (p : MFn × MFn) : Prop := ∀ t target n n', Means.Lowered Val.lower (p.1 t target n) (p.2 t.lower target.lower n')

include hb in
theorem manyM_lowered (t : Ty) (fs : List (MFn × MFn)) (h : ∀ p ∈ fs, MFnLowered p) : ∀ n n',
    Means.Lowered (List.map Val.lower) (manyM env t (fs.map (·.1)) n) (manyM env.lower t.lower (fs.map (·.2)) n') := by
  induction fs with
  | nil => intro n n'; exact .yes [] _ _
  | cons p fs ih =>
    intro n n'
    have h1 := h p (by simp) t (env.ctor t) n n'
    rw [hb.lower_ctor] at h1
    exact h1.bind fun v n1 n1' => (ih (fun p hp => h p (by simp [hp])) n1 n1').map fun _ => rfl

include hb in
theorem eachM_lowered (fs : List (MFn × MFn)) (h : ∀ p ∈ fs, MFnLowered p) : ∀ ts targets n n',
    Means.Lowered (List.map Val.lower) (eachM env (fs.map (·.1)) ts targets n) (eachM env.lower (fs.map (·.2)) (Ty.lowers ts) (targets.map Val.lower) n') := by
  induction fs with
  | nil =>
    intro ts targets n n'
    cases ts with
    | nil => exact .yes [] _ _
    | cons => exact .no
  | cons p fs ih =>
    intro ts targets n n'
    cases ts with
    | nil => exact .no
    | cons t ts =>
      have h1 := h p (by simp) t (targets.headD (env.ctor t)) n n'
      rw [← headD_lower targets _ (hb.ctor_lower t), ← hb.ctor] at h1
      have h2 : ∀ n1 n1', Means.Lowered (List.map Val.lower) (eachM env (fs.map (·.1)) ts targets.tail n1)
          (eachM env.lower (fs.map (·.2)) (Ty.lowers ts) (targets.map Val.lower).tail n1') := fun n1 n1' => by
        rw [← List.map_tail]
        exact ih (fun p hp => h p (by simp [hp])) ts targets.tail n1 n1'
      simp only [List.map_cons, eachM, Ty.lowers]
      rw [← hb.ctor t]
      exact h1.bind fun v n1 n1' => (h2 n1 n1').map fun _ => rfl

include hb in
theorem entriesM_lowered (t : Ty) (fs : List (Str × MFn × MFn)) (h : ∀ p ∈ fs, MFnLowered p.2) : ∀ kvs n n',
    Means.Lowered (List.map fun p => (p.1, p.2.lower)) (entriesM env t (fs.map fun p => (p.1, p.2.1)) kvs n)
      (entriesM env.lower t.lower (fs.map fun p => (p.1, p.2.2)) (kvs.map fun p => (p.1, p.2.lower)) n') := by
  induction fs with
  | nil => intro kvs n n'; exact .yes _ _ _
  | cons p fs ih =>
    obtain ⟨k, fn, fn'⟩ := p
    intro kvs n n'
    have h0 : ((kvs.map fun p => (p.1, p.2.lower)).lookup k).getD (env.ctor t.lower) = ((kvs.lookup k).getD (env.ctor t)).lower := by
      rw [lookup_lower, hb.ctor]
      cases kvs.lookup k with
      | none => exact (hb.ctor_lower t).symm
      | some v => rfl
    have h1 := h (k, fn, fn') (by simp) t ((kvs.lookup k).getD (env.ctor t)) n n'
    rw [← h0] at h1
    refine h1.bind fun v n1 n1' => ?_
    have h2 := ih (fun p hp => h p (by simp [hp])) (mapAssign k v kvs) n1 n1'
    rw [← mapAssign_lower] at h2
    exact h2

theorem memberAt_lower (ms : List Member) (k : Str) : memberAt (ms.map Member.lower) k = memberAt ms k := by
  simp only [memberAt, List.findIdx?_map]
  rfl

include hb in
theorem membersM_lowered (ms : List Member) (fs : List (Str × MFn × MFn)) (h : ∀ p ∈ fs, MFnLowered p.2) : ∀ vs n n',
    Means.Lowered (List.map Val.lower) (membersM env ms (fs.map fun p => (p.1, p.2.1)) vs n)
      (membersM env.lower (ms.map Member.lower) (fs.map fun p => (p.1, p.2.2)) (vs.map Val.lower) n') := by
  induction fs with
  | nil => intro vs n n'; exact .yes _ _ _
  | cons p fs ih =>
    obtain ⟨k, fn, fn'⟩ := p
    intro vs n n'
    have ih := ih (fun p hp => h p (by simp [hp]))
    simp only [List.map_cons, membersM, memberAt_lower]
    cases memberAt ms k with
    | none => exact .no
    | some i =>
      simp only [List.getElem?_map]
      cases hm : ms[i]? with
      | none => exact .no
      | some m =>
        simp only [Option.map, Member.lower]
        split
        · have h1 := h (k, fn, fn') (by simp) m.ty (env.ctor m.ty) n n'
          rw [hb.lower_ctor] at h1
          refine h1.bind fun v n1 n1' => ?_
          have h2 := ih (vs.set i (.present v)) n1 n1'
          rw [List.map_set] at h2
          exact h2
        · have h1 := h (k, fn, fn') (by simp) m.ty (vs.getD i (env.ctor m.ty)) n n'
          rw [← getD_lower vs i _ (hb.ctor_lower m.ty), ← hb.ctor] at h1
          have h2 : ∀ v n1 n1', Means.Lowered (List.map Val.lower) (membersM env ms (fs.map fun p => (p.1, p.2.1)) (vs.set i v) n1)
              (membersM env.lower (ms.map Member.lower) (fs.map fun p => (p.1, p.2.2)) ((vs.map Val.lower).set i v.lower) n1') := fun v n1 n1' => by
            have h2 := ih (vs.set i v) n1 n1'
            rw [List.map_set] at h2
            exact h2
          rw [← hb.ctor m.ty]
          exact h1.bind fun v n1 n1' => h2 v n1 n1'

include hb in
theorem fitMembers_lower (ms : List Member) : ∀ vs : List Val,
    fitMembers env.lower (ms.map Member.lower) (vs.map Val.lower) = (fitMembers env ms vs).map Val.lower := by
  induction ms with
  | nil => intro vs; rfl
  | cons m ms ih =>
    intro vs
    simp only [List.map_cons, fitMembers, ← List.map_tail, ih]
    rw [← headD_lower vs _ (by split <;> first | rfl | exact hb.ctor_lower _)]
    have : env.lower.ctor m.lower.ty = env.ctor m.ty := hb.ctor m.ty
    rw [this]
    rfl

theorem leafMeaning_lower (p : Prim) (j : Json) : leafMeaning env.lower p j = leafMeaning env p j := by
  unfold leafMeaning
  split <;> simp only [desPrim_lower]

theorem lowers_replicate (k : Nat) (t : Ty) : Ty.lowers (List.replicate k t) = List.replicate k t.lower := by
  rw [lowers_map, List.map_replicate]

include hb in
theorem nodeM_lowered (j : Json) (items : List (MFn × MFn)) (fields : List (Str × MFn × MFn)) (hi : ∀ p ∈ items, MFnLowered p)
    (hm : ∀ p ∈ fields, MFnLowered p.2) : ∀ (t : Ty) target n n',
      Means.Lowered Val.lower (nodeM env j (items.map (·.1)) (fields.map fun p => (p.1, p.2.1)) t target n)
        (nodeM env.lower j (items.map (·.2)) (fields.map fun p => (p.1, p.2.2)) t.lower target.lower n')
  | .prim p => by
    intro target n n'
    simp only [nodeM, Ty.lower, leafMeaning_lower]
    cases leafMeaning env p j with
    | ub => exact .ub
    | fail => exact .no
    | ok pv => exact .yes (Val.prim pv) _ _
  | .vec t => by
    intro target n n'
    cases j with
    | arr js =>
      simp only [nodeM, Ty.lower, elements_lower]
      exact (manyM_lowered env hb t items hi n n').map fun vs => by simp [Val.lower, lowerVals_eq]
    | _ => exact .no
  | .arr k t => by
    intro target n n'
    cases j with
    | arr js =>
      have := eachM_lowered env hb items hi (List.replicate k t) target.components n n'
      rw [lowers_replicate] at this
      simp only [nodeM, Ty.lower, components_lower]
      exact this.map fun vs => by simp [Val.lower, lowerVals_eq]
    | _ => exact .no
  | .set t => by
    intro target n n'
    cases j with
    | arr js =>
      simp only [nodeM, Ty.lower, elements_lower]
      exact (manyM_lowered env hb t items hi n n').map fun vs => by
        simp only [Val.lower, lowerVals_eq]
        exact congrArg _ (setFold_lower env.less hb.less vs _)
    | _ => exact .no
  | .map o t => by
    intro target n n'
    cases j with
    | obj ms =>
      simp only [nodeM, Ty.lower, entries_lower]
      exact (entriesM_lowered env hb t fields hm target.entries n n').map fun vs => by simp [Val.lower, lowerEntries_eq]
    | _ => exact .no
  | .dict t => by
    intro target n n'
    cases j with
    | arr js =>
      simp only [nodeM, Ty.lower, entries_lower]
      exact (manyM_lowered env hb (.tuple [.prim .str, t]) items hi n n').map fun vs => by simp [Val.lower, lowerEntries_eq, dictEntry_lower]
    | _ => exact .no
  | .tuple ts => by
    intro target n n'
    cases j with
    | arr js =>
      simp only [nodeM, Ty.lower, components_lower]
      exact (eachM_lowered env hb items hi ts target.components n n').map fun vs => by simp [Val.lower, lowerVals_eq]
    | _ => exact .no
  | .variant _ => fun _ _ _ => .no
  | .cls c => by
    intro target n n'
    cases j with
    | obj ms =>
      simp only [nodeM, Ty.lower, members_lower, Env.lower_members, fitMembers_lower env hb]
      exact (membersM_lowered env hb (env.members c) fields hm _ n n').map fun vs => by simp [Val.lower, lowerVals_eq]
    | _ => exact .no
  | .uptr t => by
    intro target n n'
    have h1 := nodeM_lowered j items fields hi hm t (env.ctor t) n n'
    rw [hb.lower_ctor] at h1
    simp only [nodeM, Ty.lower]
    exact h1.map fun _ => rfl
  | .sptr t => by
    intro target n n'
    have h1 := nodeM_lowered j items fields hi hm t (env.ctor t) (n + 1) n'
    rw [hb.lower_ctor] at h1
    simp only [nodeM, Ty.lower]
    exact h1.map fun _ => rfl

include hb in
theorem meaning_lowered : ∀ j : Json, MFnLowered (meaning env j, meaning env.lower j) := by
  have key : ∀ j : Json, (∀ j' ∈ j.items, MFnLowered (meaning env j', meaning env.lower j')) → (∀ p ∈ j.fields, MFnLowered (meaning env p.2, meaning env.lower p.2)) →
      MFnLowered (meaning env j, meaning env.lower j) := by
    intro j hi hf t target n n'
    have := nodeM_lowered env hb j (j.items.map fun j => (meaning env j, meaning env.lower j)) (j.fields.map fun p => (p.1, meaning env p.2, meaning env.lower p.2))
      (by simpa using hi) (by intro p hp; obtain ⟨q, hq, rfl⟩ := List.mem_map.1 hp; exact hf q hq) t target n n'
    rw [meaning_node env j, meaning_node env.lower j, meaningItems_eq, meaningItems_eq, meaningFields_eq, meaningFields_eq]
    simpa only [List.map_map, Function.comp_def] using this
  intro j
  generalize hn : sizeOf j = n
  induction n using Nat.strongRecOn generalizing j with
  | ind n ih =>
    subst hn
    refine key j (fun j' hj' => ih _ ?_ j' rfl) (fun p hp => ih _ ?_ p.2 rfl)
    · cases j with
      | arr js => exact size_item hj'
      | _ => cases hj'
    · cases j with
      | obj ms => exact size_field hp
      | _ => cases hp

end

/-! ## The DOM reader -/

/-- What is returned without an exception is, with unique pointers, returned by the other program. -/
def LowEnd {α : Type} (g : α → α) (r r' : DRes α) : Prop := ∀ ok a st, r = .done ok a st → ok = true ∧ ∃ st', r' = .done true (g a) st'

theorem LowEnd.map {α β : Type} {g : α → α} {h : β → β} {k k' : α → β} {r r' : DRes α} (hr : LowEnd g r r') (hk : ∀ a, k' (g a) = h (k a)) :
    LowEnd h (r.map k) (r'.map k') := by
  intro ok b st hb
  cases r with
  | ub => cases hb
  | threw s e => cases hb
  | done ok' a st' =>
    cases hb
    obtain ⟨h1, st2, h2⟩ := hr ok a st rfl
    exact ⟨h1, st2, by rw [h2, ← hk]; rfl⟩

theorem LowEnd.reject {α : Type} (g : α → α) (segs : List Seg) (e : Err) (tg : α) (st : DState) (r : DRes α) : LowEnd g (DRes.reject true segs e tg st) r := by
  intro ok a st' h
  simp [DRes.reject] at h

/-- What is to be shown for one node. -/
def LowModes (env : Env) (root root' j : Json) (t : Ty) : Prop := ∀ target loc loc' segs st st',
  LowEnd Val.lower (deser env root j true t target loc segs st) (deser env.lower root' j true t.lower target.lower loc' segs st')

section
variable (env : Env) (hb : env.Bare) (root root' : Json)
include hb

theorem runSame_low (t : Ty) (js : List Json) (h : ∀ j ∈ js, LowModes env root root' j t) : ∀ k loc loc' segs st st',
    LowEnd (List.map Val.lower) (runSame env t true (js.map (deser env root)) k loc segs st)
      (runSame env.lower t.lower true (js.map (deser env.lower root')) k loc' segs st') := by
  induction js with
  | nil => intro k loc loc' segs st st' ok a st2 ha; cases ha; exact ⟨rfl, _, rfl⟩
  | cons j js ih =>
    intro k loc loc' segs st st'
    have hj := h j (by simp) (env.fresh t) (k :: loc) (k :: loc') (.index k :: segs) st st'
    rw [hb.lower_fresh] at hj
    simp only [List.map_cons, runSame]
    cases hp : deser env root j true t (env.fresh t) (k :: loc) (.index k :: segs) st with
    | ub => intro ok a st' ha; cases ha
    | threw s e => intro ok a st' ha; cases ha
    | done ok v st1 =>
      obtain ⟨rfl, st1', h2⟩ := hj ok v st1 hp
      rw [h2]
      exact (ih (fun j hj => h j (by simp [hj])) _ _ _ _ _ _).map fun _ => rfl

theorem runTuple_low (js : List Json) : ∀ ts, (∀ (i : Nat) (j : Json) (t : Ty), js[i]? = some j → ts[i]? = some t → LowModes env root root' j t) →
    ∀ targets k loc loc' segs st st',
    LowEnd (List.map Val.lower) (runTuple env true (js.map (deser env root)) ts targets k loc segs st)
      (runTuple env.lower true (js.map (deser env.lower root')) (Ty.lowers ts) (targets.map Val.lower) k loc' segs st') := by
  induction js with
  | nil => intro ts h targets k loc loc' segs st st' ok a st' ha; cases ts <;> (cases ha; exact ⟨rfl, _, rfl⟩)
  | cons j js ih =>
    intro ts h targets k loc loc' segs st st'
    cases ts with
    | nil => intro ok a st' ha; cases ha; exact ⟨rfl, _, rfl⟩
    | cons t ts =>
      have hj := h 0 j t rfl rfl (targets.headD (env.fresh t)) (k :: loc) (k :: loc') (.index k :: segs) st st'
      rw [← headD_lower targets _ (hb.fresh_lower t)] at hj
      have he : env.lower.fresh t.lower = env.fresh t := hb.fresh t
      simp only [List.map_cons, runTuple, Ty.lowers, he]
      cases hp : deser env root j true t (targets.headD (env.fresh t)) (k :: loc) (.index k :: segs) st with
      | ub => intro ok a st' ha; cases ha
      | threw s e => intro ok a st' ha; cases ha
      | done ok v st1 =>
        obtain ⟨rfl, st1', h2⟩ := hj ok v st1 hp
        have h3 := ih ts (fun i j t hj ht => h (i + 1) j t hj ht) targets.tail (k + 1) loc loc' segs st1 st1'
        rw [List.map_tail] at h3
        rw [h2]
        exact h3.map fun _ => rfl

theorem runEntries_low (t : Ty) (ms : List (Str × Json)) (h : ∀ p ∈ ms, LowModes env root root' p.2 t) : ∀ k loc loc' segs st st',
    LowEnd (List.map fun p => (p.1, p.2.lower)) (runEntries env t true (ms.map fun p => (p.1, deser env root p.2)) k loc segs st)
      (runEntries env.lower t.lower true (ms.map fun p => (p.1, deser env.lower root' p.2)) k loc' segs st') := by
  induction ms with
  | nil => intro k loc loc' segs st st' ok a st2 ha; cases ha; exact ⟨rfl, _, rfl⟩
  | cons p ms ih =>
    obtain ⟨key, j⟩ := p
    intro k loc loc' segs st st'
    have hj := h (key, j) (by simp) (env.fresh t) (k :: loc) (k :: loc') (Seg.name (cstr key) :: segs) st st'
    rw [hb.lower_fresh] at hj
    simp only [List.map_cons, runEntries]
    cases hp : deser env root j true t (env.fresh t) (k :: loc) (Seg.name (cstr key) :: segs) st with
    | ub => intro ok a st' ha; cases ha
    | threw s e => intro ok a st' ha; cases ha
    | done ok v st1 =>
      obtain ⟨rfl, st1', h2⟩ := hj ok v st1 hp
      simp only at h2
      rw [h2]
      exact (ih (fun j hj => h j (by simp [hj])) _ _ _ _ _ _).map fun _ => rfl

theorem runMembers_low (fs : List (Str × Json)) (loc loc' : Loc) (segs : List Seg) (ms : List Member)
    (h : ∀ m ∈ ms, ∀ i j, findMember m.name fs = some (i, j) → LowModes env root root' j m.ty) : ∀ targets st st',
    LowEnd (List.map Val.lower) (runMembers env true (fs.map fun p => (p.1, deser env root p.2)) loc segs ms targets true st)
      (runMembers env.lower true (fs.map fun p => (p.1, deser env.lower root' p.2)) loc' segs (ms.map Member.lower) (targets.map Val.lower) true st') := by
  induction ms with
  | nil => intro targets st st' ok a st2 ha; cases ha; exact ⟨rfl, _, rfl⟩
  | cons m ms ih =>
    intro targets st st'
    have ih := ih (fun m' hm => h m' (by simp [hm]))
    have ht : ∀ st st', LowEnd (List.map Val.lower) (runMembers env true (fs.map fun p => (p.1, deser env root p.2)) loc segs ms targets.tail true st)
        (runMembers env.lower true (fs.map fun p => (p.1, deser env.lower root' p.2)) loc' segs (ms.map Member.lower) (targets.map Val.lower).tail true st') := by
      intro st st'
      rw [← List.map_tail]
      exact ih targets.tail st st'
    have he : env.lower.fresh m.lower.ty = env.fresh m.ty := hb.fresh m.ty
    have hk : m.lower.kind = m.kind := rfl
    have hn : m.lower.name = m.name := rfl
    simp only [List.map_cons, runMembers, findMember_map, he, hk, hn, headD_lower targets _ (hb.fresh_lower m.ty)]
    cases hf : findMember m.name fs with
    | none =>
      simp only [Option.map_none]
      cases m.kind with
      | required => intro ok a st' ha; cases ha
      | optional => exact (ht _ _).map fun _ => rfl
      | default => exact (ht _ _).map fun _ => rfl
    | some q =>
      obtain ⟨i, j⟩ := q
      simp only [Option.map_some]
      have hj := h m (by simp) i j hf (if m.kind = .optional then env.fresh m.ty else targets.headD (env.fresh m.ty))
        (i :: loc) (i :: loc') (Seg.name (cstr m.name) :: segs) st st'
      rw [apply_ite Val.lower, hb.fresh_lower] at hj
      cases hp : deser env root j true m.ty (if m.kind = .optional then env.fresh m.ty else targets.headD (env.fresh m.ty)) (i :: loc)
          (Seg.name (cstr m.name) :: segs) st with
      | ub => intro ok a st' ha; cases ha
      | threw s e => intro ok a st' ha; cases ha
      | done ok v st1 =>
        obtain ⟨rfl, st1', h2⟩ := hj ok v st1 hp
        have hty : m.lower.ty = m.ty.lower := rfl
        have h3 : (if m.kind = .optional then Val.present v.lower else v.lower) = (if m.kind = .optional then Val.present v else v).lower := by split <;> rfl
        simp only [hty, h2, h3]
        exact (ht _ _).map fun _ => rfl
end

/-- Without masked members, what the boolean variant accepts is returned by the throwing one. -/
theorem bool_to_throw (env : Env) (root j : Json) (t : Ty) (hn : j.noRef) (hc : Calm env j) (hun : Unmasked env.lower t.lower j) (target : Val) (loc : Loc)
    (segs : List Seg) (st : DState) (a : Val) (st1 : DState) (h : deser env root j false t target loc segs st = .done true a st1) :
    deser env root j true t target loc segs st = .done true a st1 := by
  have hu := lower_env_unshared env
  have ht := lower_unshared t
  have hc' := (calm_lower env j).2 hc
  have hpd : ∀ exc, (deser env.lower .null j exc t.lower target [] segs ⟨[], 0⟩).verdict = (pd env.lower j exc t.lower target segs).map fun _ => () := by
    intro exc
    simp only [pd]
    cases deser env.lower .null j exc t.lower target [] segs ⟨[], 0⟩ <;> rfl
  by_cases hf : Fails env.lower t.lower j
  · have hv := (sameVerdict env j t hn false target target segs root .null loc [] st ⟨[], 0⟩).trans (hpd false)
    have hb := (follows env.lower hu j t.lower ht hc').2 false hf ⟨hun.variants, fun _ => hun⟩ target segs
    rw [h] at hv
    cases hp : pd env.lower j false t.lower target segs with
    | ub => rw [hp] at hb; exact hb.elim
    | threw s e => rw [hp] at hb; cases hb
    | done ok v =>
      rw [hp] at hb hv
      obtain ⟨-, rfl⟩ := hb
      cases hv
  · have hv := (sameVerdict env j t hn true target target segs root .null loc [] st ⟨[], 0⟩).trans (hpd true)
    obtain ⟨w, hw⟩ := accepts env.lower hu j t.lower ht hc' hf true target segs
    rw [hw] at hv
    cases hd : deser env root j true t target loc segs st with
    | ub => rw [hd] at hv; cases hv
    | threw s e => rw [hd] at hv; cases hv
    | done ok v st' =>
      obtain ⟨rfl, h2⟩ := sameModes env root j t hn target loc segs st ok v st' hd
      rw [h] at h2
      cases h2
      rfl

theorem noRef_node {j : Json} (hn : j.noRef) : (∀ js, j = .arr js → ∀ j' ∈ js, j'.noRef) ∧ ∀ ms, j = .obj ms → ∀ p ∈ ms, p.2.noRef :=
  ⟨fun js h j' hj => by subst h; exact noRef_item hn hj, fun ms h p hp => by subst h; exact noRef_field hn hp⟩

theorem getElem?_lowers {ts : List Ty} {i : Nat} {t : Ty} (h : ts[i]? = some t) : (Ty.lowers ts)[i]? = some t.lower := by
  rw [lowers_map, List.getElem?_map, h]; rfl

theorem lowModes (env : Env) (hb : env.Bare) (root root' : Json) : ∀ j t, j.noRef → Calm env j → VariantsUnmasked env.lower t.lower j → LowModes env root root' j t := by
  apply lexInd
  intro j t ihj iht hn hc hun target loc loc' segs st st'
  have hitem : ∀ js, j = .arr js → ∀ t', ∀ j' ∈ js, Child env.lower t.lower j t'.lower j' → LowModes env root root' j' t' := by
    rintro js rfl t' j' hj' hch
    exact ihj j' (size_item hj') t' (noRef_item hn hj') (hc.item hj') (hun.child hch)
  cases t with
  | prim p =>
    rw [deser_prim, Ty.lower, deser_prim, desPrim_lower]
    cases desPrim env p j with
    | ub => intro ok a st' ha; cases ha
    | reject e => exact LowEnd.reject _ _ _ _ _ _
    | ok pv => intro ok a st' ha; cases ha; exact ⟨rfl, _, rfl⟩
  | vec t =>
    rw [deser_vec, Ty.lower, deser_vec]
    cases j with
    | arr js =>
      exact (runSame_low env hb root root' t js (fun j' hj' => hitem js rfl t j' hj' (.vec _ _ _ hj')) _ _ _ _ _ _).map fun vs => by simp [Val.lower, lowerVals_eq]
    | _ => exact LowEnd.reject _ _ _ _ _ _
  | arr n t =>
    rw [deser_arr, Ty.lower, deser_arr]
    cases j with
    | arr js =>
      simp only
      split
      · have h := runSame_low env hb root root' t js (fun j' hj' => hitem js rfl t j' hj' (.arr _ _ _ _ hj')) 0 loc loc' segs st st'
        cases hp : runSame env t true (js.map (deser env root)) 0 loc segs st with
        | ub => intro ok a st' ha; cases ha
        | threw s e => intro ok a st' ha; cases ha
        | done ok vs st1 =>
          obtain ⟨rfl, st1', h2⟩ := h ok vs st1 hp
          rw [h2]
          intro ok a st' ha
          cases ha
          exact ⟨rfl, st1', by simp [Val.lower, lowerVals_eq]⟩
      · exact LowEnd.reject _ _ _ _ _ _
    | _ => exact LowEnd.reject _ _ _ _ _ _
  | set t =>
    rw [deser_set, Ty.lower, deser_set]
    cases j with
    | arr js =>
      exact (runSame_low env hb root root' t js (fun j' hj' => hitem js rfl t j' hj' (.set _ _ _ hj')) _ _ _ _ _ _).map fun vs => by
        have := setFold_lower env.less hb.less vs []
        simp only [Val.lower, lowerVals_eq]
        rw [← this]; rfl
    | _ => exact LowEnd.reject _ _ _ _ _ _
  | map o t =>
    rw [deser_map, Ty.lower, deser_map]
    cases j with
    | obj ms =>
      exact (runEntries_low env hb root root' t ms (fun p hp => ihj p.2 (size_field hp) t (noRef_field hn hp) (hc.field hp) (hun.child (.map _ _ _ _ hp)))
        _ _ _ _ _ _).map fun ps => by
        have := mapFold_lower ps []
        simp only [Val.lower, lowerEntries_eq]
        rw [← this]; rfl
    | _ => exact LowEnd.reject _ _ _ _ _ _
  | dict t =>
    rw [deser_dict, Ty.lower, deser_dict]
    cases j with
    | arr js =>
      exact (runSame_low env hb root root' (.tuple [.prim .str, t]) js (fun j' hj' => hitem js rfl _ j' hj' (.dict _ _ _ hj')) _ _ _ _ _ _).map fun vs => by
        simp [Val.lower, lowerEntries_eq, dictEntry_lower]
    | _ => exact LowEnd.reject _ _ _ _ _ _
  | tuple ts =>
    rw [deser_tuple, Ty.lower, deser_tuple]
    cases j with
    | arr js =>
      simp only [lowers_length, components_lower]
      split
      · exact (runTuple_low env hb root root' js ts (fun i j' t' hj' ht' => hitem js rfl t' j' (List.mem_of_getElem? hj')
          (.tuple _ _ i _ _ (getElem?_lowers ht') hj')) _ _ _ _ _ _ _).map fun vs => by simp [Val.lower, lowerVals_eq]
      · exact LowEnd.reject _ _ _ _ _ _
    | _ => exact LowEnd.reject _ _ _ _ _ _
  | variant ts =>
    have hall : Unmasked env.lower (.variant (Ty.lowers ts)) j := hun _ _ .self
    have hmem : ∀ {t'}, t' ∈ ts → t'.lower ∈ Ty.lowers ts := fun h => by rw [lowers_map]; exact List.mem_map_of_mem h
    have key : ∀ (us : List Ty), (∀ u ∈ us, u ∈ ts) → ∀ i st st', LowEnd Val.lower
        (match tryAll env root j us i loc segs st with | .done false _ st' => (DRes.reject true segs .noAlternative target st' : DRes Val) | r => r)
        (tryAll env.lower root' j (Ty.lowers us) i loc' segs st') := by
      intro us
      induction us with
      | nil => intro _ i st st'; exact LowEnd.reject _ _ _ _ _ _
      | cons u us ih =>
        intro hus i st st'
        have hu := hus u (by simp)
        have hunu := hall.child (.variant _ _ _ (hmem hu))
        have hv := sameVerdict env j u hn false (env.fresh u) (env.lower.fresh u.lower) segs root root' loc loc' st st'
        simp only [tryAll, Ty.lowers]
        cases hp : deser env root j false u (env.fresh u) loc segs st with
        | ub => intro ok a st' ha; cases ha
        | threw s e => intro ok a st' ha; cases ha
        | done ok a st1 =>
          cases ok with
          | true =>
            have h1 := bool_to_throw env root j u hn hc hunu _ _ _ _ _ _ hp
            obtain ⟨-, st2, h2⟩ := iht u (by have := List.sizeOf_lt_of_mem hu; simp; omega) hn hc hunu.variants (env.fresh u) loc loc' segs st st' _ _ _ h1
            rw [hb.lower_fresh] at h2
            have hn' : (deser env.lower root' j false u.lower (env.lower.fresh u.lower) loc' segs st') = .done true a.lower st2 :=
              (sameModes env.lower root' j u.lower hn _ _ _ _ _ _ _ h2).2
            rw [hn']
            intro ok a' st3 ha
            cases ha
            exact ⟨rfl, _, rfl⟩
          | false =>
            have hq : ∃ w st2, deser env.lower root' j false u.lower (env.lower.fresh u.lower) loc' segs st' = .done false w st2 := by
              rw [hp] at hv
              cases h2 : deser env.lower root' j false u.lower (env.lower.fresh u.lower) loc' segs st' with
              | ub => rw [h2] at hv; cases hv
              | threw s e => rw [h2] at hv; cases hv
              | done ok w st2 => rw [h2] at hv; cases hv; exact ⟨w, st2, rfl⟩
            obtain ⟨w, st2, h2⟩ := hq
            rw [h2]
            exact ih (fun u hu => hus u (by simp [hu])) (i + 1) st1 st2
    rw [deser_variant, Ty.lower, deser_variant]
    have h := key ts (fun _ h => h) 0 st st'
    cases hp : tryAll env root j ts 0 loc segs st with
    | ub => intro ok a st' ha; cases ha
    | threw s e => intro ok a st' ha; cases ha
    | done ok v st1 =>
      rw [hp] at h
      cases ok with
      | false => exact LowEnd.reject _ _ _ _ _ _
      | true =>
        obtain ⟨-, st2, h2⟩ := h true v st1 rfl
        rw [h2]
        intro ok a st' ha
        cases ha
        exact ⟨rfl, _, rfl⟩
  | cls c =>
    rw [deser_cls, Ty.lower, deser_cls]
    cases j with
    | obj ms =>
      simp only [members_lower, Env.lower_members]
      exact (runMembers_low env hb root root' ms loc loc' segs (env.members c) (fun m hm i j' hf =>
        ihj j' (size_field (findMember_mem hf)) m.ty (noRef_field hn (findMember_mem hf)) (hc.field (findMember_mem hf))
          (hun.child (.cls c ms m.lower i j' (by rw [Env.lower_members]; exact List.mem_map_of_mem hm) hf))) _ _ _).map fun vs => by simp [Val.lower, lowerVals_eq]
    | _ => exact LowEnd.reject _ _ _ _ _ _
  | uptr t =>
    rw [deser_uptr, Ty.lower, deser_uptr]
    have h := iht t (by simp) hn hc (hun.child (.uptr _ _)) (env.ctor t) loc loc' segs st st'
    rw [hb.lower_ctor] at h
    cases hp : deser env root j true t (env.ctor t) loc segs st with
    | ub => intro ok a st' ha; cases ha
    | threw s e => intro ok a st' ha; cases ha
    | done ok vs st1 =>
      obtain ⟨rfl, st2, h2⟩ := h ok vs st1 hp
      rw [h2]
      intro ok a st' ha
      cases ha
      exact ⟨rfl, _, rfl⟩
  | sptr t =>
    rw [deser_sptr, Ty.lower, deser_uptr, noRef_refMember hn]
    simp only
    have h := iht t (by simp) hn hc (hun.child (.uptr _ _)) (env.ctor t) loc loc' segs { st with next := st.next + 1 } st'
    rw [hb.lower_ctor] at h
    cases hp : deser env root j true t (env.ctor t) loc segs { st with next := st.next + 1 } with
    | ub => intro ok a st' ha; cases ha
    | threw s e => intro ok a st' ha; cases ha
    | done ok vs st1 =>
      obtain ⟨rfl, st2, h2⟩ := h ok vs st1 hp
      rw [h2]
      intro ok a st' ha
      cases ha
      exact ⟨rfl, _, rfl⟩

end Verif.Core
