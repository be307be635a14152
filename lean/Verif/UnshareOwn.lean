import Verif.Unshare

/-!
# Every shared pointer gets an object of its own

How often an address occurs in a value after reading: at most as often as in the target, and once more if it is new.
-/

namespace Verif.Core

/-- How often the value refers to the address. -/
def uses (a : Nat) (v : Val) : Nat := (addrs v).count a
/-- `uses` for lists. -/
def usesAll (a : Nat) (vs : List Val) : Nat := (addrsAll vs).count a
/-- `uses` for maps. -/
def usesVals (a : Nat) (kvs : List (Str × Val)) : Nat := (addrsVals kvs).count a

/-- 1 for the addresses from `n` up to, but not including, `m`. -/
def win (n m a : Nat) : Nat := if n ≤ a ∧ a < m then 1 else 0

/-- Where a read goes on from what the target holds (arrays, tuples, maps and members), the keys of maps are in ascending order (`std::map`). -/
inductive Neat (env : Env) : Ty → Val → Prop
  | prim (p : Prim) (v : Val) : Neat env (.prim p) v
  | vec (t : Ty) (v : Val) : Neat env (.vec t) v
  | set (t : Ty) (v : Val) : Neat env (.set t) v
  | dict (t : Ty) (v : Val) : Neat env (.dict t) v
  | variant (ts : List Ty) (v : Val) : Neat env (.variant ts) v
  | uptr (t : Ty) (v : Val) : Neat env (.uptr t) v
  | sptr (t : Ty) (v : Val) : Neat env (.sptr t) v
  | arr (k : Nat) (t : Ty) (v : Val) : (∀ (i : Nat) (w : Val), i < k → v.components[i]? = some w → Neat env t w) → Neat env (.arr k t) v
  | tuple (ts : List Ty) (v : Val) : (∀ (i : Nat) (t : Ty) (w : Val), ts[i]? = some t → v.components[i]? = some w → Neat env t w) → Neat env (.tuple ts) v
  | map (o : Bool) (t : Ty) (v : Val) : KeysAsc v.entries → (∀ (k : Str) (w : Val), (k, w) ∈ v.entries → Neat env t w) → Neat env (.map o t) v
  | cls (c : Nat) (v : Val) : (∀ (i : Nat) (m : Member) (w : Val), (env.members c)[i]? = some m → m.kind ≠ .optional → v.members[i]? = some w → Neat env m.ty w) → Neat env (.cls c) v

/-- `Neat` for components. -/
def NeatEach (env : Env) (ts : List Ty) (vs : List Val) : Prop := ∀ (i : Nat) (t : Ty) (w : Val), ts[i]? = some t → vs[i]? = some w → Neat env t w

/-- `Neat` for members. -/
def NeatMembers (env : Env) (ms : List Member) (vs : List Val) : Prop :=
  ∀ (i : Nat) (m : Member) (w : Val), ms[i]? = some m → m.kind ≠ .optional → vs[i]? = some w → Neat env m.ty w

/-- `Neat` for maps. -/
def NeatMap (env : Env) (t : Ty) (kvs : List (Str × Val)) : Prop := KeysAsc kvs ∧ ∀ (k : Str) (w : Val), (k, w) ∈ kvs → Neat env t w

theorem win_add {n m k : Nat} (h1 : n ≤ m) (h2 : m ≤ k) (a : Nat) : win n m a + win m k a = win n k a := by
  unfold win
  split <;> split <;> split <;> omega

theorem win_one (n a : Nat) : win n (n + 1) a = if a = n then 1 else 0 := by
  unfold win
  split <;> split <;> omega

theorem win_le (n m a : Nat) : win n m a ≤ 1 := by
  unfold win; split <;> omega

@[simp] theorem usesAll_nil (a : Nat) : usesAll a [] = 0 := rfl
@[simp] theorem usesAll_cons (a : Nat) (v : Val) (vs : List Val) : usesAll a (v :: vs) = uses a v + usesAll a vs := by simp [usesAll, uses, addrsAll]
@[simp] theorem usesVals_nil (a : Nat) : usesVals a [] = 0 := rfl
@[simp] theorem usesVals_cons (a : Nat) (k : Str) (v : Val) (kvs : List (Str × Val)) : usesVals a ((k, v) :: kvs) = uses a v + usesVals a kvs := by
  simp [usesVals, uses, addrsVals]

theorem usesAll_append (a : Nat) (vs ws : List Val) : usesAll a (vs ++ ws) = usesAll a vs + usesAll a ws := by
  induction vs with
  | nil => simp
  | cons v vs ih => simp [ih]; omega

theorem usesVals_append (a : Nat) (vs ws : List (Str × Val)) : usesVals a (vs ++ ws) = usesVals a vs + usesVals a ws := by
  induction vs with
  | nil => simp
  | cons p vs ih => obtain ⟨k, v⟩ := p; simp [ih]; omega

@[simp] theorem uses_seq (a : Nat) (vs : List Val) : uses a (.seq vs) = usesAll a vs := rfl
@[simp] theorem uses_tup (a : Nat) (vs : List Val) : uses a (.tup vs) = usesAll a vs := rfl
@[simp] theorem uses_set (a : Nat) (vs : List Val) : uses a (.set vs) = usesAll a vs := rfl
@[simp] theorem uses_obj (a : Nat) (vs : List Val) : uses a (.obj vs) = usesAll a vs := rfl
@[simp] theorem uses_map (a : Nat) (vs : List (Str × Val)) : uses a (.map vs) = usesVals a vs := rfl
@[simp] theorem uses_dict (a : Nat) (vs : List (Str × Val)) : uses a (.dict vs) = usesVals a vs := rfl
@[simp] theorem uses_prim (a : Nat) (p : PVal) : uses a (.prim p) = 0 := rfl
@[simp] theorem uses_present (a : Nat) (v : Val) : uses a (.present v) = uses a v := rfl
@[simp] theorem uses_uptr (a : Nat) (v : Val) : uses a (.uptr v) = uses a v := rfl
@[simp] theorem uses_alt (a i : Nat) (v : Val) : uses a (.alt i v) = uses a v := rfl
theorem uses_sptr (a n : Nat) (v : Val) : uses a (.sptr n v) = (if a = n then 1 else 0) + uses a v := by
  simp only [uses, addrs, List.count_cons, beq_iff_eq]
  by_cases h : n = a
  · simp [h, Nat.add_comm]
  · simp [h, Ne.symm h]

theorem uses_none {v : Val} (h : addrs v = []) (a : Nat) : uses a v = 0 := by simp [uses, h]

theorem usesAll_headD (a : Nat) (vs : List Val) (d : Val) (hd : uses a d = 0) : uses a (vs.headD d) + usesAll a vs.tail = usesAll a vs := by
  cases vs with
  | nil => simpa using hd
  | cons v vs => simp

theorem usesAll_set (a : Nat) (d : Val) (hd : uses a d = 0) (v : Val) : ∀ (vs : List Val) (i : Nat),
    usesAll a (vs.set i v) + uses a (vs.getD i d) ≤ uses a v + usesAll a vs
  | [], i => by simp [hd]
  | w :: vs, 0 => by simp; omega
  | w :: vs, i + 1 => by
    have := usesAll_set a d hd v vs i
    simp only [List.getD_eq_getElem?_getD] at this
    simp only [List.set_cons_succ, usesAll_cons, List.getD_eq_getElem?_getD, List.getElem?_cons_succ]
    omega

theorem usesAll_setInsert (a : Nat) (less : Val → Val → Bool) (x : Val) (vs : List Val) : usesAll a (setInsert less x vs) ≤ uses a x + usesAll a vs := by
  induction vs with
  | nil => simp [setInsert]
  | cons v vs ih =>
    simp only [setInsert]
    split
    · simp; omega
    · split
      · simp
      · simp

theorem usesAll_setFold (a : Nat) (less : Val → Val → Bool) (vs : List Val) : ∀ us : List Val,
    usesAll a (vs.foldl (fun s v => setInsert less v s) us) ≤ usesAll a us + usesAll a vs := by
  induction vs with
  | nil => intro us; simp
  | cons v vs ih =>
    intro us
    have h1 := ih (setInsert less v us)
    have h2 := usesAll_setInsert a less v us
    simp only [List.foldl_cons, usesAll_cons]
    omega

theorem usesVals_mapAssign_le (a : Nat) (k : Str) (v : Val) (kvs : List (Str × Val)) : usesVals a (mapAssign k v kvs) ≤ uses a v + usesVals a kvs := by
  induction kvs with
  | nil => simp [mapAssign]
  | cons p kvs ih =>
    obtain ⟨k', v'⟩ := p
    simp only [mapAssign]
    split
    · simp
    · split <;> simp <;> omega

theorem usesVals_mapFold (a : Nat) (ps : List (Str × Val)) : ∀ kvs : List (Str × Val),
    usesVals a (ps.foldl (fun s p => mapAssign p.1 p.2 s) kvs) ≤ usesVals a kvs + usesVals a ps := by
  induction ps with
  | nil => intro us; simp
  | cons p ps ih =>
    obtain ⟨k, v⟩ := p
    intro us
    have h1 := ih (mapAssign k v us)
    have h2 := usesVals_mapAssign_le a k v us
    simp only [List.foldl_cons, usesVals_cons]
    omega

theorem usesVals_mapAssign (a : Nat) (k : Str) (v d : Val) (hd : uses a d = 0) (kvs : List (Str × Val)) (hk : KeysAsc kvs) :
    usesVals a (mapAssign k v kvs) + uses a ((kvs.lookup k).getD d) ≤ uses a v + usesVals a kvs := by
  induction kvs with
  | nil => simp [mapAssign, hd]
  | cons p kvs ih =>
    obtain ⟨k', v'⟩ := p
    have hk' := List.pairwise_cons.1 hk
    have ih := ih hk'.2
    simp only [mapAssign, List.lookup_cons]
    split
    · rename_i he
      subst he
      simp; omega
    · rename_i hne
      have hbeq : (k == k') = false := by simpa using fun h => hne h.symm
      simp only [hbeq]
      split
      · simp; omega
      · rename_i hls
        have hls : strLess k k' = true := by
          rcases strLess_trichotomy k k' with h | h | h
          · exact h
          · exact absurd h.symm hne
          · exact absurd h hls
        have : kvs.lookup k = none := by
          rw [List.lookup_eq_none_iff]
          intro q hq
          have h1 := hk'.1 q hq
          simp only [bne_iff_ne, ne_eq]
          rintro rfl
          have h2 := strLess_trans _ _ _ hls h1
          rw [strLess_irrefl] at h2
          cases h2
        simp [this, hd]

theorem uses_elements (a : Nat) (v : Val) : usesAll a v.elements ≤ uses a v := by cases v <;> simp [Val.elements]
theorem uses_components (a : Nat) (v : Val) : usesAll a v.components ≤ uses a v := by cases v <;> simp [Val.components]
theorem uses_members (a : Nat) (v : Val) : usesAll a v.members ≤ uses a v := by cases v <;> simp [Val.members]
theorem uses_entries (a : Nat) (v : Val) : usesVals a v.entries ≤ uses a v := by cases v <;> simp [Val.entries]

theorem uses_dictEntry (a : Nat) (v : Val) : uses a (dictEntry v).2 ≤ uses a v := by
  have h0 : uses a .nullptr = 0 := rfl
  unfold dictEntry
  split <;> simp

theorem usesVals_dict (a : Nat) (vs : List Val) : usesVals a (vs.map dictEntry) ≤ usesAll a vs := by
  induction vs with
  | nil => simp
  | cons v vs ih =>
    have h1 := uses_dictEntry a v
    rw [List.map_cons, show dictEntry v = ((dictEntry v).1, (dictEntry v).2) from rfl, usesVals_cons, usesAll_cons]
    omega

/-! ## The parser -/

/-- What the outcome owns: the rest of the target and new addresses. -/
def Means.Owned {α : Type} (neat : α → Prop) (u : Nat → α → Nat) (n : Nat) (base : Nat → Nat) : Means α → Prop
  | .yes v n' => n ≤ n' ∧ neat v ∧ ∀ a, u a v ≤ base a + win n n' a
  | _ => True

theorem Means.Owned.map {α β : Type} {neat : α → Prop} {neat' : β → Prop} {u : Nat → α → Nat} {u' : Nat → β → Nat} {n : Nat} {base base' : Nat → Nat} {r : Means α}
    {k : α → β} (h : Means.Owned neat u n base r) (hn : ∀ v, neat v → neat' (k v)) (hk : ∀ a v, u' a (k v) + base a ≤ u a v + base' a) :
    Means.Owned neat' u' n base' (r.map k) := by
  cases r with
  | ub => trivial
  | no => trivial
  | yes v n' =>
    obtain ⟨h1, h2, h3⟩ := h
    refine ⟨h1, hn v h2, fun a => ?_⟩
    have := h3 a
    have := hk a v
    omega

theorem Means.Owned.bind {α β : Type} {neat : α → Prop} {neat' : β → Prop} {u : Nat → α → Nat} {u' : Nat → β → Nat} {n : Nat} {base base' : Nat → Nat} {r : Means α}
    {k : α → Nat → Means β} (base1 : α → Nat → Nat) (h : Means.Owned neat u n base r) (hk : ∀ v n', neat v → Means.Owned neat' u' n' (base1 v) (k v n'))
    (hb : ∀ v a, neat v → base1 v a + base a ≤ u a v + base' a) :
    Means.Owned neat' u' n base' (r.bind k) := by
  cases r with
  | ub => trivial
  | no => trivial
  | yes v n1 =>
    obtain ⟨h1, h2, h3⟩ := h
    simp only [Means.bind]
    have hkv := hk v n1 h2
    cases hv : k v n1 with
    | ub => trivial
    | no => trivial
    | yes w n2 =>
      rw [hv] at hkv
      obtain ⟨h4, h5, h6⟩ := hkv
      refine ⟨Nat.le_trans h1 h4, h5, fun a => ?_⟩
      have := h3 a
      have := h6 a
      have := hb v a h2
      have := win_add h1 h4 a
      omega

/-- The values that the environment provides have no shared objects: default-constructed pointers are null. -/
structure Env.NoObjects (env : Env) : Prop where
  fresh : ∀ t, addrs (env.fresh t) = []
  ctor : ∀ t, addrs (env.ctor t) = []

/-- The maps in default constructed values are sorted. -/
def Env.NeatCtor (env : Env) : Prop := ∀ t, Neat env t (env.ctor t)

section
variable (env : Env) (hb : env.NoObjects) (hc : env.NeatCtor)

/-- What is to be shown for the meaning of one node. -/
def MFnOwned (f : MFn) : Prop := ∀ t target n, Neat env t target → Means.Owned (Neat env t) uses n (fun a => uses a target) (f t target n)

include hb in
theorem ctor_uses (t : Ty) (a : Nat) : uses a (env.ctor t) = 0 := uses_none (hb.ctor t) a

include hb hc

theorem manyM_owned (t : Ty) (fs : List MFn) (h : ∀ f ∈ fs, MFnOwned env f) : ∀ n, Means.Owned (fun _ => True) usesAll n (fun _ => 0) (manyM env t fs n) := by
  induction fs with
  | nil => intro n; exact ⟨Nat.le_refl _, trivial, fun a => by simp⟩
  | cons f fs ih =>
    intro n
    refine (h f (by simp) t (env.ctor t) n (hc t)).bind (fun v a => uses a v) (fun v n' hv => ?_) (fun v a _ => by simp [ctor_uses env hb])
    exact (ih (fun f hf => h f (by simp [hf])) n').map (fun vs hvs => trivial) (fun a vs => by simp; omega)

theorem eachM_owned (fs : List MFn) (h : ∀ f ∈ fs, MFnOwned env f) : ∀ ts targets n, NeatEach env ts targets →
    Means.Owned (NeatEach env ts) usesAll n (fun a => usesAll a targets) (eachM env fs ts targets n) := by
  induction fs with
  | nil =>
    intro ts targets n _
    cases ts with
    | nil => exact ⟨Nat.le_refl _, fun i t w h => by simp at h, fun a => by simp⟩
    | cons => trivial
  | cons f fs ih =>
    intro ts targets n hn
    cases ts with
    | nil => trivial
    | cons t ts =>
      have hh : Neat env t (targets.headD (env.ctor t)) ∧ NeatEach env ts targets.tail := by
        cases targets with
        | nil => exact ⟨hc t, fun i t w _ h => by simp at h⟩
        | cons v vs => exact ⟨hn 0 t v rfl rfl, fun i t w h1 h2 => hn (i + 1) t w h1 h2⟩
      refine (h f (by simp) t _ n hh.1).bind (fun v a => uses a v + usesAll a targets.tail) (fun v n' hv => ?_) (fun v a _ => ?_)
      · refine (ih (fun f hf => h f (by simp [hf])) ts targets.tail n' hh.2).map (fun vs hvs => ?_) (fun a vs => by simp; omega)
        intro i t' w h1 h2
        cases i with
        | zero => simp only [List.getElem?_cons_zero, Option.some.injEq] at h1 h2; subst h1 h2; exact hv
        | succ i => exact hvs i t' w h1 h2
      · have := usesAll_headD a targets (env.ctor t) (ctor_uses env hb t a)
        omega

theorem entriesM_owned (t : Ty) (fs : List (Str × MFn)) (h : ∀ p ∈ fs, MFnOwned env p.2) : ∀ kvs n, NeatMap env t kvs →
    Means.Owned (NeatMap env t) usesVals n (fun a => usesVals a kvs) (entriesM env t fs kvs n) := by
  induction fs with
  | nil => intro kvs n hn; exact ⟨Nat.le_refl _, hn, fun a => by simp⟩
  | cons p fs ih =>
    obtain ⟨k, f⟩ := p
    intro kvs n hn
    have hh : Neat env t ((kvs.lookup k).getD (env.ctor t)) := by
      cases hl : kvs.lookup k with
      | none => exact hc t
      | some v => exact hn.2 k v (lookup_mem hl)
    refine (h (k, f) (by simp) t _ n hh).bind (fun v a => usesVals a (mapAssign k v kvs)) (fun v n' hv => ?_) (fun v a _ => ?_)
    · refine ih (fun p hp => h p (by simp [hp])) (mapAssign k v kvs) n' ⟨mapAssign_asc k v kvs hn.1, fun k' w hq => ?_⟩
      rcases mem_mapAssign hq with hq | hq
      · cases hq; exact hv
      · exact hn.2 k' w hq
    · exact usesVals_mapAssign a k v (env.ctor t) (ctor_uses env hb t a) kvs hn.1

theorem membersM_owned (ms : List Member) (fs : List (Str × MFn)) (h : ∀ p ∈ fs, MFnOwned env p.2) : ∀ vs n, NeatMembers env ms vs →
    Means.Owned (NeatMembers env ms) usesAll n (fun a => usesAll a vs) (membersM env ms fs vs n) := by
  induction fs with
  | nil => intro vs n hn; exact ⟨Nat.le_refl _, hn, fun a => by simp⟩
  | cons p fs ih =>
    obtain ⟨k, f⟩ := p
    intro vs n hn
    have ih := ih (fun p hp => h p (by simp [hp]))
    simp only [membersM]
    cases memberAt ms k with
    | none => trivial
    | some i =>
      simp only []
      cases hm : ms[i]? with
      | none => trivial
      | some m =>
        have hu := ctor_uses env hb m.ty
        have hset : ∀ v, (m.kind ≠ .optional → Neat env m.ty v) → NeatMembers env ms (vs.set i v) := by
          intro v hv i' m' w h1 h2 h3
          by_cases hi : i = i'
          · subst hi
            rw [hm] at h1
            cases h1
            rw [List.getElem?_set_self'] at h3
            cases hvi : vs[i]? with
            | none => rw [hvi] at h3; cases h3
            | some u => rw [hvi] at h3; cases h3; exact hv h2
          · rw [List.getElem?_set_ne hi] at h3
            exact hn i' m' w h1 h2 h3
        simp only []
        split
        · rename_i hopt
          refine (h (k, f) (by simp) m.ty (env.ctor m.ty) n (hc m.ty)).bind (fun v a => usesAll a (vs.set i (.present v)))
            (fun v n' hv => ih _ n' (hset _ fun h => absurd hopt h)) (fun v a _ => ?_)
          have := usesAll_set a (env.ctor m.ty) (hu a) (.present v) vs i
          simp only [uses_present] at this
          simp only [hu]
          omega
        · rename_i hopt
          have hh : Neat env m.ty (vs.getD i (env.ctor m.ty)) := by
            rw [List.getD_eq_getElem?_getD]
            cases hv : vs[i]? with
            | none => exact hc m.ty
            | some v => exact hn i m v hm hopt hv
          exact (h (k, f) (by simp) m.ty _ n hh).bind (fun v a => usesAll a (vs.set i v)) (fun v n' hv => ih _ n' (hset _ fun _ => hv))
            (fun v a _ => usesAll_set a (env.ctor m.ty) (hu a) v vs i)

theorem fitMembers_owned (ms : List Member) : ∀ vs : List Val, NeatMembers env ms vs →
    NeatMembers env ms (fitMembers env ms vs) ∧ ∀ a, usesAll a (fitMembers env ms vs) ≤ usesAll a vs := by
  induction ms with
  | nil => intro vs _; exact ⟨fun i m w h => by simp at h, fun a => by simp [fitMembers]⟩
  | cons m ms ih =>
    intro vs hn
    have ht : NeatMembers env ms vs.tail := by
      intro i m' w h1 h2 h3
      cases vs with
      | nil => simp at h3
      | cons v vs => exact hn (i + 1) m' w h1 h2 h3
    obtain ⟨h1, h2⟩ := ih vs.tail ht
    refine ⟨fun i m' w h3 h4 h5 => ?_, fun a => ?_⟩
    · cases i with
      | zero =>
        simp only [fitMembers, List.getElem?_cons_zero, Option.some.injEq] at h3 h5
        subst h3 h5
        cases vs with
        | nil => simp only [List.headD_nil, if_neg h4]; exact hc _
        | cons v vs => exact hn 0 m v rfl h4 rfl
      | succ i =>
        simp only [fitMembers, List.getElem?_cons_succ] at h3 h5
        exact h1 i m' w h3 h4 h5
    · have h3 := usesAll_headD a vs (if m.kind = .optional then .absent else env.ctor m.ty) (by split <;> first | rfl | exact ctor_uses env hb _ a)
      have := h2 a
      simp only [fitMembers, usesAll_cons]
      omega

theorem nodeM_owned (j : Json) (items : List MFn) (fields : List (Str × MFn)) (hi : ∀ f ∈ items, MFnOwned env f) (hm : ∀ p ∈ fields, MFnOwned env p.2) :
    ∀ (t : Ty) target n, Neat env t target → Means.Owned (Neat env t) uses n (fun a => uses a target) (nodeM env j items fields t target n)
  | .prim p => by
    intro target n _
    simp only [nodeM]
    cases leafMeaning env p j with
    | ub => trivial
    | fail => trivial
    | ok pv => exact ⟨Nat.le_refl _, .prim _ _, fun a => by simp⟩
  | .vec t => by
    intro target n _
    cases j with
    | arr js =>
      simp only [nodeM]
      refine (manyM_owned env hb hc t items hi n).map (fun vs _ => .vec _ _) (fun a vs => ?_)
      have := uses_elements a target
      simp only [uses_seq, usesAll_append]
      omega
    | _ => trivial
  | .arr k t => by
    intro target n hn
    cases j with
    | arr js =>
      simp only [nodeM]
      have hn : NeatEach env (List.replicate k t) target.components := by
        cases hn with
        | arr _ _ _ h =>
          intro i t' w h1 h2
          rw [List.getElem?_replicate] at h1
          split at h1
          · cases h1; exact h i w (by assumption) h2
          · cases h1
      refine (eachM_owned env hb hc items hi _ target.components n hn).map (fun vs hvs => .arr _ _ _ fun i w h1 h2 => ?_) (fun a vs => ?_)
      · exact hvs i t w (by rw [List.getElem?_replicate, if_pos h1]) h2
      · have := uses_components a target
        simp only [uses_tup]
        omega
    | _ => trivial
  | .set t => by
    intro target n _
    cases j with
    | arr js =>
      simp only [nodeM]
      refine (manyM_owned env hb hc t items hi n).map (fun vs _ => .set _ _) (fun a vs => ?_)
      have := uses_elements a target
      have := usesAll_setFold a env.less vs target.elements
      simp only [uses_set]
      omega
    | _ => trivial
  | .map o t => by
    intro target n hn
    cases j with
    | obj ms =>
      simp only [nodeM]
      have hne : NeatMap env t target.entries := by
        cases hn with
        | map _ _ _ h1 h2 => exact ⟨h1, h2⟩
      refine (entriesM_owned env hb hc t fields hm target.entries n hne).map (fun vs hvs => .map _ _ _ hvs.1 hvs.2) (fun a vs => ?_)
      have := uses_entries a target
      simp only [uses_map]
      omega
    | _ => trivial
  | .dict t => by
    intro target n hn
    cases j with
    | arr js =>
      simp only [nodeM]
      refine (manyM_owned env hb hc _ items hi n).map (fun vs _ => .dict _ _) (fun a vs => ?_)
      have := uses_entries a target
      have := usesVals_dict a vs
      simp only [uses_dict, usesVals_append]
      omega
    | _ => trivial
  | .tuple ts => by
    intro target n hn
    cases j with
    | arr js =>
      simp only [nodeM]
      have hn : NeatEach env ts target.components := by
        cases hn with
        | tuple _ _ h => exact h
      refine (eachM_owned env hb hc items hi _ target.components n hn).map (fun vs hvs => .tuple _ _ hvs) (fun a vs => ?_)
      have := uses_components a target
      simp only [uses_tup]
      omega
    | _ => trivial
  | .variant _ => fun _ _ _ => trivial
  | .cls c => by
    intro target n hn
    cases j with
    | obj ms =>
      simp only [nodeM]
      have hnm : NeatMembers env (env.members c) target.members := by
        cases hn with
        | cls _ _ h => exact h
      obtain ⟨h1, h2⟩ := fitMembers_owned env hb hc (env.members c) target.members hnm
      refine (membersM_owned env hb hc (env.members c) fields hm _ n h1).map (fun vs hvs => .cls _ _ hvs) (fun a vs => ?_)
      have := uses_members a target
      have := h2 a
      simp only [uses_obj]
      omega
    | _ => trivial
  | .uptr t => by
    intro target n _
    have h1 := nodeM_owned j items fields hi hm t (env.ctor t) n (hc t)
    simp only [nodeM]
    exact h1.map (fun _ _ => .uptr _ _) (fun a v => by simp [ctor_uses env hb])
  | .sptr t => by
    intro target n _
    have h1 := nodeM_owned j items fields hi hm t (env.ctor t) (n + 1) (hc t)
    simp only [nodeM]
    cases hr : nodeM env j items fields t (env.ctor t) (n + 1) with
    | ub => trivial
    | no => trivial
    | yes v n' =>
      rw [hr] at h1
      obtain ⟨h2, h3, h4⟩ := h1
      refine ⟨by omega, .sptr _ _, fun a => ?_⟩
      have h4 := h4 a
      have h6 := win_add (Nat.le_succ n) h2 a
      have h5 := win_one n a
      simp only [ctor_uses env hb] at h4
      simp only [Nat.succ_eq_add_one, h5] at h6
      rw [uses_sptr]
      omega

theorem meaning_owned : ∀ j : Json, MFnOwned env (meaning env j) := by
  have key : ∀ j : Json, (∀ j' ∈ j.items, MFnOwned env (meaning env j')) → (∀ p ∈ j.fields, MFnOwned env (meaning env p.2)) → MFnOwned env (meaning env j) := by
    intro j hi hf t target n hn
    rw [meaning_node env j, meaningItems_eq, meaningFields_eq]
    refine nodeM_owned env hb hc j _ _ (fun f hf => ?_) (fun p hp => ?_) t target n hn
    · obtain ⟨j', hj', rfl⟩ := List.mem_map.1 hf
      exact hi j' hj'
    · obtain ⟨q, hq, rfl⟩ := List.mem_map.1 hp
      exact hf q hq
  intro j
  generalize hn : sizeOf j = n
  induction n using Nat.strongRecOn generalizing j with
  | ind n ih =>
    subst hn
    refine key j (fun j' hj' => ih _ ?_ j' rfl) (fun p hp => ih _ ?_ p.2 rfl)
    · cases j with
      | arr js => exact size_item hj'
      | _ => cases hj'
    · cases j with
      | obj ms => exact size_field hp
      | _ => cases hp
end

/-! ## The DOM reader -/

/-- What the outcome owns: the rest of the target and new addresses. -/
def DRes.Owned {α : Type} (u : Nat → α → Nat) (st : DState) (base : Nat → Nat) (r : DRes α) : Prop :=
  ∀ ok v st', r = .done ok v st' → st.next ≤ st'.next ∧ ∀ a, u a v ≤ base a + win st.next st'.next a

theorem DRes.Owned.map {α β : Type} {u : Nat → α → Nat} {u' : Nat → β → Nat} {st : DState} {base base' : Nat → Nat} {r : DRes α} {k : α → β}
    (h : DRes.Owned u st base r) (hk : ∀ a v, u' a (k v) + base a ≤ u a v + base' a) : DRes.Owned u' st base' (r.map k) := by
  intro ok v st' hv
  cases r with
  | ub => cases hv
  | threw s e => cases hv
  | done ok' w st1 =>
    cases hv
    obtain ⟨h1, h2⟩ := h ok w st' rfl
    refine ⟨h1, fun a => ?_⟩
    have := h2 a
    have := hk a w
    omega

/-- A later part of a reader. -/
theorem DRes.Owned.after {α : Type} {u : Nat → α → Nat} {st st1 : DState} {base base' : Nat → Nat} {r : DRes α} (h1 : st.next ≤ st1.next)
    (h : DRes.Owned u st1 base r) (hb : ∀ a, base a ≤ base' a + win st.next st1.next a) : DRes.Owned u st base' r := by
  intro ok v st' hv
  obtain ⟨h2, h3⟩ := h ok v st' hv
  refine ⟨Nat.le_trans h1 h2, fun a => ?_⟩
  have := h3 a
  have := hb a
  have := win_add h1 h2 a
  omega

theorem DRes.Owned.done {α : Type} {u : Nat → α → Nat} {st st' : DState} {base : Nat → Nat} {ok : Bool} {v : α} (h : st.next ≤ st'.next)
    (hv : ∀ a, u a v ≤ base a + win st.next st'.next a) : DRes.Owned u st base (.done ok v st') := by
  intro ok' v' st1 h1
  cases h1
  exact ⟨h, hv⟩

theorem DRes.Owned.ub {α : Type} {u : Nat → α → Nat} {st : DState} {base : Nat → Nat} : DRes.Owned u st base .ub := by
  intro ok v st' h; cases h

theorem DRes.Owned.threw {α : Type} {u : Nat → α → Nat} {st : DState} {base : Nat → Nat} {s : List Seg} {e : Err} : DRes.Owned u st base (.threw s e) := by
  intro ok v st' h; cases h

theorem DRes.Owned.reject {α : Type} {u : Nat → α → Nat} {st : DState} {base : Nat → Nat} (exc : Bool) (s : List Seg) (e : Err) {v : α} (hv : ∀ a, u a v ≤ base a) :
    DRes.Owned u st base (.reject exc s e v st) := by
  unfold DRes.reject
  split
  · exact .threw
  · exact .done (Nat.le_refl _) fun a => Nat.le_trans (hv a) (Nat.le_add_right _ _)

section
variable (env : Env) (hb : env.NoObjects) (root : Json)

/-- What is to be shown for one node. -/
def Owns (env : Env) (root j : Json) (t : Ty) : Prop :=
  ∀ exc target loc segs st, DRes.Owned uses st (fun a => uses a target) (deser env root j exc t target loc segs st)

include hb

theorem fresh_uses (t : Ty) (a : Nat) : uses a (env.fresh t) = 0 := uses_none (hb.fresh t) a

theorem runSame_owned (t : Ty) (exc : Bool) (js : List Json) (h : ∀ j ∈ js, Owns env root j t) : ∀ k loc segs st,
    DRes.Owned usesAll st (fun _ => 0) (runSame env t exc (js.map (deser env root)) k loc segs st) := by
  induction js with
  | nil => intro k loc segs st; exact .done (Nat.le_refl _) fun a => by simp
  | cons j js ih =>
    intro k loc segs st
    have hj := h j (by simp) exc (env.fresh t) (k :: loc) (.index k :: segs) st
    simp only [List.map_cons, runSame]
    cases hp : deser env root j exc t (env.fresh t) (k :: loc) (.index k :: segs) st with
    | ub => exact .ub
    | threw s e => exact .threw
    | done ok v st1 =>
      obtain ⟨h1, h2⟩ := hj ok v st1 hp
      dsimp only at h2
      cases ok with
      | false => exact .done h1 fun a => by simp
      | true =>
        have h3 := (ih (fun j hj => h j (by simp [hj])) (k + 1) loc segs st1).map (k := (v :: ·)) (u' := usesAll) (base' := fun a => uses a v) (fun a vs => by simp; omega)
        exact h3.after h1 fun a => by have := h2 a; simp only [fresh_uses env hb] at this; exact this

theorem runEntries_owned (t : Ty) (exc : Bool) (ms : List (Str × Json)) (h : ∀ p ∈ ms, Owns env root p.2 t) : ∀ k loc segs st,
    DRes.Owned usesVals st (fun _ => 0) (runEntries env t exc (ms.map fun p => (p.1, deser env root p.2)) k loc segs st) := by
  induction ms with
  | nil => intro k loc segs st; exact .done (Nat.le_refl _) fun a => by simp
  | cons p ms ih =>
    obtain ⟨n, j⟩ := p
    intro k loc segs st
    have hj := h (n, j) (by simp) exc (env.fresh t) (k :: loc) (Seg.name (cstr n) :: segs) st
    simp only [List.map_cons, runEntries]
    simp only at hj
    cases hp : deser env root j exc t (env.fresh t) (k :: loc) (Seg.name (cstr n) :: segs) st with
    | ub => exact .ub
    | threw s e => exact .threw
    | done ok v st1 =>
      obtain ⟨h1, h2⟩ := hj ok v st1 hp
      dsimp only at h2
      cases ok with
      | false => exact .done h1 fun a => by simp
      | true =>
        have h3 := (ih (fun j hj => h j (by simp [hj])) (k + 1) loc segs st1).map (k := ((cstr n, v) :: ·)) (u' := usesVals) (base' := fun a => uses a v)
          (fun a vs => by simp; omega)
        exact h3.after h1 fun a => by have := h2 a; simp only [fresh_uses env hb] at this; exact this

theorem runTuple_owned (exc : Bool) (js : List Json) : ∀ ts, (∀ j ∈ js, ∀ t ∈ ts, Owns env root j t) → ∀ targets k loc segs st,
    DRes.Owned usesAll st (fun a => usesAll a targets) (runTuple env exc (js.map (deser env root)) ts targets k loc segs st) := by
  induction js with
  | nil => intro ts _ targets k loc segs st; exact .done (Nat.le_refl _) fun a => by simp
  | cons j js ih =>
    intro ts h targets k loc segs st
    cases ts with
    | nil => exact .done (Nat.le_refl _) fun a => by simp
    | cons t ts =>
      have hj := h j (by simp) t (by simp) exc (targets.headD (env.fresh t)) (k :: loc) (.index k :: segs) st
      have hh := fun a => usesAll_headD a targets (env.fresh t) (fresh_uses env hb t a)
      simp only [List.map_cons, runTuple]
      cases hp : deser env root j exc t (targets.headD (env.fresh t)) (k :: loc) (.index k :: segs) st with
      | ub => exact .ub
      | threw s e => exact .threw
      | done ok v st1 =>
        obtain ⟨h1, h2⟩ := hj ok v st1 hp
        dsimp only at h2
        cases ok with
        | false => exact .done h1 fun a => by have := h2 a; have := hh a; simp only [usesAll_cons]; omega
        | true =>
          have h3 := (ih ts (fun j hj t ht => h j (by simp [hj]) t (by simp [ht])) targets.tail (k + 1) loc segs st1).map (k := (v :: ·)) (u' := usesAll)
            (base' := fun a => uses a v + usesAll a targets.tail) (fun a vs => by simp; omega)
          exact h3.after h1 fun a => by have := h2 a; have := hh a; omega

theorem runMembers_owned (exc : Bool) (fs : List (Str × Json)) (loc : Loc) (segs : List Seg) : ∀ ms : List Member, (∀ p ∈ fs, ∀ m ∈ ms, Owns env root p.2 m.ty) →
    ∀ targets res st, DRes.Owned usesAll st (fun a => usesAll a targets)
      (runMembers env exc (fs.map fun p => (p.1, deser env root p.2)) loc segs ms targets res st) := by
  intro ms
  induction ms with
  | nil => intro _ targets res st; exact .done (Nat.le_refl _) fun a => by simp
  | cons m ms ih =>
    intro h targets res st
    have ih := ih (fun p hp m hm => h p hp m (by simp [hm]))
    have hh := fun a => usesAll_headD a targets (env.fresh m.ty) (fresh_uses env hb m.ty a)
    have habs : ∀ a, uses a .absent = 0 := fun _ => rfl
    simp only [runMembers]
    cases hf : findMember m.name (fs.map fun p => (p.1, deser env root p.2)) with
    | none =>
      simp only []
      split
      · exact (ih targets.tail res st).map fun a vs => by have := hh a; simp only [usesAll_cons, habs]; omega
      · exact (ih targets.tail res st).map fun a vs => by have := hh a; simp only [usesAll_cons]; omega
      · split
        · exact .threw
        · exact (ih targets.tail false st).map fun a vs => by have := hh a; simp only [usesAll_cons]; omega
    | some q =>
      obtain ⟨i, f⟩ := q
      have hmem := findMember_mem hf
      obtain ⟨p, hp, hpe⟩ := List.mem_map.1 hmem
      simp only [Prod.mk.injEq] at hpe
      obtain ⟨_, rfl⟩ := hpe
      simp only []
      have hj := h p hp m (by simp) exc (if m.kind = .optional then env.fresh m.ty else targets.headD (env.fresh m.ty)) (i :: loc) (Seg.name (cstr m.name) :: segs) st
      cases hr : deser env root p.2 exc m.ty (if m.kind = .optional then env.fresh m.ty else targets.headD (env.fresh m.ty)) (i :: loc)
          (Seg.name (cstr m.name) :: segs) st with
      | ub => exact .ub
      | threw s e => exact .threw
      | done ok v st1 =>
        obtain ⟨h1, h2⟩ := hj ok v st1 hr
        dsimp only at h2
        have h3 := (ih targets.tail ok st1).map (k := ((if m.kind = .optional then .present v else v) :: ·)) (u' := usesAll)
          (base' := fun a => uses a v + usesAll a targets.tail) (fun a vs => by split <;> simp <;> omega)
        refine h3.after h1 fun a => ?_
        have h4 := h2 a
        have := hh a
        have := fresh_uses env hb m.ty a
        split at h4 <;> omega

theorem tryAll_owned (j : Json) (ts : List Ty) (h : ∀ t ∈ ts, Owns env root j t) : ∀ i loc segs st,
    DRes.Owned uses st (fun _ => 0) (tryAll env root j ts i loc segs st) := by
  induction ts with
  | nil => intro i loc segs st; exact .done (Nat.le_refl _) fun a => Nat.zero_le _
  | cons t ts ih =>
    intro i loc segs st
    have ht := h t (by simp) false (env.fresh t) loc segs st
    simp only [tryAll]
    cases hp : deser env root j false t (env.fresh t) loc segs st with
    | ub => exact .ub
    | threw s e => exact .threw
    | done ok v st1 =>
      obtain ⟨h1, h2⟩ := ht ok v st1 hp
      dsimp only at h2
      cases ok with
      | true => exact .done h1 fun a => by have := h2 a; simp only [fresh_uses env hb] at this; simpa using this
      | false => exact (ih (fun t ht => h t (by simp [ht])) (i + 1) loc segs st1).after h1 fun a => by simp

theorem owns : ∀ j t, j.noRef → Owns env root j t := by
  refine lexInd fun j t ihj iht hn exc target loc segs st => ?_
  have hitem : ∀ js, j = .arr js → ∀ t', ∀ j' ∈ js, Owns env root j' t' := by
    rintro js rfl t' j' hj'
    exact ihj j' (size_item hj') t' (noRef_item hn hj')
  have hfield : ∀ ms, j = .obj ms → ∀ t', ∀ p ∈ ms, Owns env root p.2 t' := by
    rintro ms rfl t' p hp
    exact ihj p.2 (size_field hp) t' (noRef_field hn hp)
  have hself : ∀ a, uses a target ≤ uses a target := fun _ => Nat.le_refl _
  cases t with
  | prim p =>
    rw [deser_prim]
    cases desPrim env p j with
    | ub => exact .ub
    | reject e =>
      refine .reject _ _ _ fun a => ?_
      unfold spoil
      split
      · rw [uses_none rfl]; exact Nat.zero_le _
      · exact Nat.le_refl _
    | ok pv => exact .done (Nat.le_refl _) fun a => by simp
  | vec t =>
    rw [deser_vec]
    cases j with
    | arr js => exact (runSame_owned env hb root t exc js (hitem js rfl t) _ _ _ _).map fun a vs => by simp
    | _ => exact .reject _ _ _ hself
  | arr n t =>
    rw [deser_arr]
    cases j with
    | arr js =>
      simp only
      split
      · have h1 := runSame_owned env hb root t exc js (hitem js rfl t) 0 loc segs st
        cases hr : runSame env t exc (js.map (deser env root)) 0 loc segs st with
        | ub => exact .ub
        | threw s e => exact .threw
        | done ok vs st1 =>
          obtain ⟨h2, h3⟩ := h1 ok vs st1 hr
          dsimp only at h3
          cases ok with
          | true => exact .done h2 fun a => by have := h3 a; simp only [uses_tup]; omega
          | false => exact .done h2 fun a => by omega
      · exact .reject _ _ _ hself
    | _ => exact .reject _ _ _ hself
  | set t =>
    rw [deser_set]
    cases j with
    | arr js =>
      refine (runSame_owned env hb root t exc js (hitem js rfl t) _ _ _ _).map fun a vs => ?_
      have := usesAll_setFold a env.less vs []
      simp only [uses_set, usesAll_nil] at *
      omega
    | _ => exact .reject _ _ _ hself
  | map o t =>
    rw [deser_map]
    cases j with
    | obj ms =>
      refine (runEntries_owned env hb root t exc ms (hfield ms rfl t) _ _ _ _).map fun a kvs => ?_
      have := usesVals_mapFold a kvs []
      simp only [uses_map, usesVals_nil] at *
      omega
    | _ => exact .reject _ _ _ hself
  | dict t =>
    rw [deser_dict]
    cases j with
    | arr js =>
      refine (runSame_owned env hb root (.tuple [.prim .str, t]) exc js (hitem js rfl _) _ _ _ _).map fun a vs => ?_
      have := usesVals_dict a vs
      simp only [uses_dict]
      omega
    | _ => exact .reject _ _ _ hself
  | tuple ts =>
    rw [deser_tuple]
    cases j with
    | arr js =>
      simp only
      split
      · refine (runTuple_owned env hb root exc js ts (fun j hj t _ => hitem js rfl t j hj) _ _ _ _ _).map fun a vs => ?_
        have := uses_components a target
        simp only [uses_tup]
        omega
      · exact .reject _ _ _ hself
    | _ => exact .reject _ _ _ hself
  | variant ts =>
    rw [deser_variant]
    have h1 := tryAll_owned env hb root j ts (fun t ht => iht t (size_alt ht) hn) 0 loc segs st
    cases hr : tryAll env root j ts 0 loc segs st with
    | ub => exact .ub
    | threw s e => exact .threw
    | done ok v st1 =>
      obtain ⟨h2, h3⟩ := h1 ok v st1 hr
      dsimp only at h3
      cases ok with
      | true => exact .done h2 fun a => by have := h3 a; omega
      | false =>
        exact DRes.Owned.after (base := fun a => uses a target) h2 (.reject _ _ _ hself) fun a => by omega
  | cls c =>
    rw [deser_cls]
    cases j with
    | obj ms =>
      refine (runMembers_owned env hb root exc ms loc segs _ (fun p hp m _ => hfield ms rfl m.ty p hp) _ _ _).map fun a vs => ?_
      have := uses_members a target
      simp only [uses_obj]
      omega
    | _ => exact .reject _ _ _ hself
  | uptr t =>
    rw [deser_uptr]
    have h1 := iht t (by simp) hn exc (env.ctor t) loc segs st
    cases hr : deser env root j exc t (env.ctor t) loc segs st with
    | ub => exact .ub
    | threw s e => exact .threw
    | done ok v st1 =>
      obtain ⟨h2, h3⟩ := h1 ok v st1 hr
      dsimp only at h3
      cases ok with
      | true => exact .done h2 fun a => by have := h3 a; have := ctor_uses env hb t a; simp only [uses_uptr]; omega
      | false => exact .done h2 fun a => by omega
  | sptr t =>
    rw [deser_sptr, noRef_refMember hn]
    have h1 := iht t (by simp) hn exc (env.ctor t) loc segs { st with next := st.next + 1 }
    cases hr : deser env root j exc t (env.ctor t) loc segs { st with next := st.next + 1 } with
    | ub => exact .ub
    | threw s e => exact .threw
    | done ok v st1 =>
      obtain ⟨h2, h3⟩ := h1 ok v st1 hr
      dsimp only at h3
      simp only at h2
      have h4 : ∀ a, uses a (.sptr st.next v) ≤ uses a target + win st.next st1.next a := by
        intro a
        have := h3 a
        have := ctor_uses env hb t a
        have h6 := win_add (Nat.le_succ st.next) h2 a
        have h5 := win_one st.next a
        simp only [Nat.succ_eq_add_one, h5] at h6
        rw [uses_sptr]
        omega
      have h5 : (st1.put loc (st.next, t, v)).next = st1.next := by unfold DState.put; split <;> rfl
      cases ok with
      | true => exact .done (by rw [h5]; omega) (by rw [h5]; exact h4)
      | false => exact .done (by omega) h4
end

/-- Every address occurs at most once if it is counted at most once. -/
theorem nodup_of_uses {v : Val} (h : ∀ a, uses a v ≤ 1) : (addrs v).Nodup := by
  rw [List.nodup_iff_count]
  exact h

theorem mem_of_uses {v : Val} {a : Nat} (h : a ∈ addrs v) : 0 < uses a v := List.count_pos_iff.2 h

end Verif.Core
