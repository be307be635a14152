import Verif.Evolve
import Verif.ReadTyped

/-!
# Replacing one node of a document

A document and the value it stands for are changed at one place: if the new node stands for the new component, then the new document stands for the
new value.
-/

namespace Verif.Core

/-! ## Specification -/

/-- The value of one key of a map replaced. -/
def reassign {α : Type} (k : Str) (w : α) (kvs : List (Str × α)) : List (Str × α) := kvs.map fun p => (p.1, if p.1 = k then w else p.2)

/-- At one place of type `t0`, the document has `a`, the edited document has `b`, the value has `va` and the edited value has `vb`; everywhere else they
are the same. `P` says whether the value is written (then the place may be inside of a variant, a set, or a shared object that is written in full, and a dictionary is
an object) or read (then a dictionary is an array of pairs, and the elements of a set, which the nodes of the array denote, may be in any order and several times). -/
inductive Edits (env : Env) (P : Prop) (t0 : Ty) (a b : Json) (va vb : Val) : Ty → Json → Json → Val → Val → Prop
  | here : Edits env P t0 a b va vb t0 a b va vb
  | vec (t : Ty) (js : List Json) (vs : List Val) (i : Nat) (x y : Json) (v w : Val) : js[i]? = some x → vs[i]? = some v →
      Edits env P t0 a b va vb t x y v w → Edits env P t0 a b va vb (.vec t) (.arr js) (.arr (js.set i y)) (.seq vs) (.seq (vs.set i w))
  | arr (n : Nat) (t : Ty) (js : List Json) (vs : List Val) (i : Nat) (x y : Json) (v w : Val) : js[i]? = some x → vs[i]? = some v →
      Edits env P t0 a b va vb t x y v w → Edits env P t0 a b va vb (.arr n t) (.arr js) (.arr (js.set i y)) (.tup vs) (.tup (vs.set i w))
  | tuple (ts : List Ty) (js : List Json) (vs : List Val) (i : Nat) (t : Ty) (x y : Json) (v w : Val) : ts[i]? = some t → js[i]? = some x → vs[i]? = some v →
      Edits env P t0 a b va vb t x y v w → Edits env P t0 a b va vb (.tuple ts) (.arr js) (.arr (js.set i y)) (.tup vs) (.tup (vs.set i w))
  | map (o : Bool) (t : Ty) (ms : List (Str × Json)) (kvs : List (Str × Val)) (i : Nat) (k : Str) (x y : Json) (v w : Val) : ms[i]? = some (k, x) →
      (ms.map fun p => cstr p.1).Nodup → cstr k = k → (kvs.map (·.1)).Nodup → (k, v) ∈ kvs →
      Edits env P t0 a b va vb t x y v w → Edits env P t0 a b va vb (.map o t) (.obj ms) (.obj (ms.set i (k, y))) (.map kvs) (.map (reassign k w kvs))
  | member (c : Nat) (ms : List (Str × Json)) (vs : List Val) (k : Nat) (m : Member) (i : Nat) (x y : Json) (v w : Val) : (env.members c)[k]? = some m →
      m.kind ≠ .optional → findMember m.name ms = some (i, x) → vs[k]? = some v →
      Edits env P t0 a b va vb m.ty x y v w → Edits env P t0 a b va vb (.cls c) (.obj ms) (.obj (ms.set i (m.name, y))) (.obj vs) (.obj (vs.set k w))
  | optional (c : Nat) (ms : List (Str × Json)) (vs : List Val) (k : Nat) (m : Member) (i : Nat) (x y : Json) (v w : Val) : (env.members c)[k]? = some m →
      m.kind = .optional → findMember m.name ms = some (i, x) → vs[k]? = some (.present v) →
      Edits env P t0 a b va vb m.ty x y v w → Edits env P t0 a b va vb (.cls c) (.obj ms) (.obj (ms.set i (m.name, y))) (.obj vs) (.obj (vs.set k (.present w)))
  | uptr (t : Ty) (x y : Json) (v w : Val) : Edits env P t0 a b va vb t x y v w → Edits env P t0 a b va vb (.uptr t) x y (.uptr v) (.uptr w)
  | variant (ts : List Ty) (i : Nat) (t : Ty) (x y : Json) (v w : Val) : P → ts[i]? = some t →
      Edits env P t0 a b va vb t x y v w → Edits env P t0 a b va vb (.variant ts) x y (.alt i v) (.alt i w)
  | set (t : Ty) (js : List Json) (vs : List Val) (i : Nat) (x y : Json) (v w : Val) : P → js[i]? = some x → vs[i]? = some v →
      Edits env P t0 a b va vb t x y v w → Edits env P t0 a b va vb (.set t) (.arr js) (.arr (js.set i y)) (.set vs) (.set (vs.set i w))
  | shared (c : Nat) (t : Ty) (x y : Json) (v w : Val) : P → refMember x = none →
      Edits env P t0 a b va vb t x y v w → Edits env P t0 a b va vb (.sptr t) x y (.sptr c v) (.sptr c w)
  | dictObj (t : Ty) (ms : List (Str × Json)) (kvs : List (Str × Val)) (i : Nat) (k : Str) (x y : Json) (v w : Val) : P → ms[i]? = some (k, x) → kvs[i]? = some (k, v) →
      Edits env P t0 a b va vb t x y v w → Edits env P t0 a b va vb (.dict t) (.obj ms) (.obj (ms.set i (k, y))) (.dict kvs) (.dict (kvs.set i (k, w)))
  | dictArr (t : Ty) (js : List Json) (kvs : List (Str × Val)) (i : Nat) (k : Str) (x y : Json) (v w : Val) : ¬ P → js[i]? = some (.arr [.str k, x]) → kvs[i]? = some (k, v) →
      Edits env P t0 a b va vb t x y v w → Edits env P t0 a b va vb (.dict t) (.arr js) (.arr (js.set i (.arr [.str k, y]))) (.dict kvs) (.dict (kvs.set i (k, w)))
  | setRead (t : Ty) (js : List Json) (us : List Val) (i : Nat) (x y : Json) (v w : Val) : ¬ P → DecodesAll env t js us →
      (∀ j ∈ js, Calm env j ∧ VariantsUnmasked env t j) → js[i]? = some x → us[i]? = some v →
      Edits env P t0 a b va vb t x y v w →
      Edits env P t0 a b va vb (.set t) (.arr js) (.arr (js.set i y)) (.set (setOf env.less us)) (.set (setOf env.less (us.set i w)))

/-! ## Reading -/

section
variable {env : Env}

theorem pSame_edit (t : Ty) (js : List Json) (i : Nat) (x y : Json) (v w : Val)
    (h : ∀ target segs, pd env x true t target segs = .done true v → pd env y true t target segs = .done true w) :
    ∀ (k : Nat) (segs : List Seg) (vs : List Val), pSame env t true js k segs = .done true vs → js[i]? = some x → vs[i]? = some v →
      pSame env t true (js.set i y) k segs = .done true (vs.set i w) := by
  induction js generalizing i with
  | nil => intro k segs vs _ hx; simp at hx
  | cons j js ih =>
    intro k segs vs hr hx hv
    rw [pSame] at hr
    split at hr
    · cases hr
    · cases hr
    · cases hr
    · rename_i v0 hd
      obtain ⟨vs', hr', rfl⟩ := PRes.map_done hr
      cases i with
      | zero =>
        cases hx; cases hv
        rw [List.set_cons_zero, List.set_cons_zero, pSame, h _ _ hd]
        simp only [hr', PRes.map]
      | succ i =>
        rw [List.set_cons_succ, List.set_cons_succ, pSame, hd]
        simp only [ih i _ _ _ hr' hx hv, PRes.map]

theorem pTuple_edit (js : List Json) (ts : List Ty) (i : Nat) (t : Ty) (x y : Json) (v w : Val)
    (h : ∀ target segs, pd env x true t target segs = .done true v → pd env y true t target segs = .done true w) :
    ∀ (targets : List Val) (k : Nat) (segs : List Seg) (vs : List Val), pTuple env true js ts targets k segs = .done true vs → ts[i]? = some t → js[i]? = some x →
      vs[i]? = some v → pTuple env true (js.set i y) ts targets k segs = .done true (vs.set i w) := by
  induction js generalizing i ts with
  | nil => intro targets k segs vs _ _ hx; simp at hx
  | cons j js ih =>
    intro targets k segs vs hr ht hx hv
    cases ts with
    | nil => simp at ht
    | cons u ts =>
      rw [pTuple] at hr
      split at hr
      · cases hr
      · cases hr
      · cases hr
      · rename_i v0 hd
        obtain ⟨vs', hr', rfl⟩ := PRes.map_done hr
        cases i with
        | zero =>
          cases hx; cases hv; cases ht
          rw [List.set_cons_zero, List.set_cons_zero, pTuple, h _ _ hd]
          simp only [hr', PRes.map]
        | succ i =>
          rw [List.set_cons_succ, List.set_cons_succ, pTuple, hd]
          simp only [ih ts i _ _ _ _ hr' ht hx hv, PRes.map]

theorem reassign_other {α : Type} {k : Str} {w : α} {l : List (Str × α)} (h : k ∉ l.map (·.1)) : reassign k w l = l := by
  unfold reassign
  conv_rhs => rw [← List.map_id l]
  refine List.map_congr_left fun p hp => ?_
  have : p.1 ≠ k := fun he => h (List.mem_map.2 ⟨p, hp, he⟩)
  simp [this]

theorem mapAssign_reassign {α : Type} (k k' : Str) (a w : α) (l : List (Str × α)) :
    mapAssign k' (if k' = k then w else a) (reassign k w l) = reassign k w (mapAssign k' a l) := by
  induction l with
  | nil => rfl
  | cons p l ih =>
    obtain ⟨k1, b⟩ := p
    unfold reassign at ih ⊢
    simp only [List.map_cons, mapAssign]
    split
    · rfl
    · split
      · rw [ih]; rfl
      · rfl

theorem mapOf_reassign {α : Type} (k : Str) (w : α) (l : List (Str × α)) : mapOf (reassign k w l) = reassign k w (mapOf l) := by
  have : ∀ acc : List (Str × α), (reassign k w l).foldl (fun s p => mapAssign p.1 p.2 s) (reassign k w acc) = reassign k w (l.foldl (fun s p => mapAssign p.1 p.2 s) acc) := by
    induction l with
    | nil => intro acc; rfl
    | cons p l ih =>
      intro acc
      show List.foldl _ (mapAssign p.1 (if p.1 = k then w else p.2) (reassign k w acc)) (reassign k w l) = _
      rw [mapAssign_reassign, ih]
      rfl
  exact this []

theorem pEntries_keys (t : Ty) (ms : List (Str × Json)) : ∀ (segs : List Seg) (kvs : List (Str × Val)), pEntries env t true ms segs = .done true kvs → kvs.map (·.1) = ms.map fun p => cstr p.1 := by
  induction ms with
  | nil => intro segs kvs hr; rw [pEntries] at hr; cases hr; rfl
  | cons p ms ih =>
    intro segs kvs hr
    rw [pEntries] at hr
    split at hr
    · cases hr
    · cases hr
    · cases hr
    · obtain ⟨vs', hr', rfl⟩ := PRes.map_done hr
      simp [ih _ _ hr']

theorem pEntries_edit (t : Ty) (ms : List (Str × Json)) (i : Nat) (k : Str) (hk : cstr k = k) (x y : Json) (v w : Val)
    (h : ∀ target segs, pd env x true t target segs = .done true v → pd env y true t target segs = .done true w) :
    ∀ (segs : List Seg) (kvs : List (Str × Val)), pEntries env t true ms segs = .done true kvs → ms[i]? = some (k, x) → (ms.map fun p => cstr p.1).Nodup → (k, v) ∈ kvs →
      pEntries env t true (ms.set i (k, y)) segs = .done true (reassign k w kvs) := by
  induction ms generalizing i with
  | nil => intro segs vs _ hx; simp at hx
  | cons p ms ih =>
    intro segs kvs hr hx hn hv
    obtain ⟨k0, j0⟩ := p
    rw [pEntries] at hr
    split at hr
    · cases hr
    · cases hr
    · cases hr
    · rename_i v0 hd
      obtain ⟨vs', hr', rfl⟩ := PRes.map_done hr
      have hkeys := pEntries_keys t ms _ _ hr'
      rw [List.map_cons, List.nodup_cons] at hn
      cases i with
      | zero =>
        cases hx
        rw [List.set_cons_zero, pEntries]
        have hnot : k ∉ vs'.map (·.1) := by rw [hkeys]; rw [hk] at hn; exact hn.1
        have hv0 : v = v0 := by
          rcases List.mem_cons.1 hv with he | hm
          · exact (Prod.mk.inj he).2
          · exact absurd (List.mem_map.2 ⟨_, hm, rfl⟩) hnot
        subst hv0
        rw [h _ _ hd]
        simp only [hr', PRes.map]
        have : reassign k w ((cstr k, v) :: vs') = (cstr k, w) :: reassign k w vs' := by simp [reassign, hk]
        rw [this, reassign_other hnot]
      | succ i =>
        have hmem : (k, x) ∈ ms := List.mem_of_getElem? (by simpa using hx)
        have hne : k ≠ cstr k0 := fun he => hn.1 (List.mem_map.2 ⟨_, hmem, hk.trans he⟩)
        have hv' : (k, v) ∈ vs' := by
          rcases List.mem_cons.1 hv with he | hm
          · exact absurd (Prod.mk.inj he).1 hne
          · exact hm
        rw [List.set_cons_succ, pEntries, hd]
        simp only [ih i _ _ hr' (by simpa using hx) hn.2 hv', PRes.map]
        have : reassign k w ((cstr k0, v0) :: vs') = (cstr k0, v0) :: reassign k w vs' := by simp [reassign, hne.symm]
        rw [this]

theorem find_get {α : Type} (name : Str) (ms : List (Str × α)) : ∀ (i : Nat) (x : α), findMember name ms = some (i, x) → ms[i]? = some (name, x) ∧ i < ms.length := by
  induction ms with
  | nil => intro i x h; cases h
  | cons p ms ih =>
    intro i x h
    obtain ⟨k, a⟩ := p
    simp only [findMember] at h
    split at h
    · rename_i hk
      cases h; cases hk; exact ⟨rfl, by simp⟩
    · cases hf : findMember name ms with
      | none => rw [hf] at h; cases h
      | some r =>
        obtain ⟨i', x'⟩ := r
        rw [hf] at h
        cases h
        obtain ⟨h1, h2⟩ := ih _ _ hf
        exact ⟨by simpa using h1, by simp; omega⟩

theorem find_set {α : Type} (name : Str) (y : α) (ms : List (Str × α)) : ∀ (i : Nat) (x : α), findMember name ms = some (i, x) → findMember name (ms.set i (name, y)) = some (i, y) := by
  induction ms with
  | nil => intro i x h; cases h
  | cons p ms ih =>
    intro i x h
    obtain ⟨k, a⟩ := p
    simp only [findMember] at h
    split at h
    · cases h; simp [findMember]
    · rename_i hk
      cases hf : findMember name ms with
      | none => rw [hf] at h; cases h
      | some r =>
        obtain ⟨i', x'⟩ := r
        rw [hf] at h
        cases h
        rw [List.set_cons_succ, findMember, if_neg hk, ih _ _ hf]

theorem find_set_ne {α : Type} (name other : Str) (hne : other ≠ name) (y : α) (ms : List (Str × α)) : ∀ (i : Nat) (x : α), findMember name ms = some (i, x) →
    findMember other (ms.set i (name, y)) = findMember other ms := by
  induction ms with
  | nil => intro i x h; cases h
  | cons p ms ih =>
    intro i x h
    obtain ⟨k, a⟩ := p
    simp only [findMember] at h
    split at h
    · rename_i hk
      cases h
      rw [List.set_cons_zero, findMember, findMember, if_neg (Ne.symm hne), if_neg (by rw [hk]; exact Ne.symm hne)]
    · rename_i hk
      cases hf : findMember name ms with
      | none => rw [hf] at h; cases h
      | some r =>
        obtain ⟨i', x'⟩ := r
        rw [hf] at h
        cases h
        rw [List.set_cons_succ, findMember, findMember, ih _ _ hf]

theorem pMembers_same (ms ms' : List (Str × Json)) (l : List Member) (h : ∀ m ∈ l, findMember m.name ms' = findMember m.name ms) (segs : List Seg) :
    ∀ targets res, pMembers env true ms' segs l targets res = pMembers env true ms segs l targets res := by
  induction l with
  | nil => intro targets res; rfl
  | cons m l ih =>
    intro targets res
    have ih := ih fun m hm => h m (by simp [hm])
    simp only [pMembers, h m (by simp), ih]

theorem pMembers_edit (ms : List (Str × Json)) (m : Member) (i : Nat) (x y : Json) (v w : Val) (hf : findMember m.name ms = some (i, x))
    (h : ∀ target segs, pd env x true m.ty target segs = .done true v → pd env y true m.ty target segs = .done true w) (segs : List Seg)
    (hmod : ∀ target segs ok u, pd env x true m.ty target segs = .done ok u → ok = true)
    (l : List Member) (hn : (l.map (·.name)).Nodup) (k : Nat) :
    ∀ targets res vs, pMembers env true ms segs l targets res = .done true vs → l[k]? = some m →
      vs[k]? = some (if m.kind = .optional then .present v else v) →
      pMembers env true (ms.set i (m.name, y)) segs l targets res = .done true (vs.set k (if m.kind = .optional then .present w else w)) := by
  induction l generalizing k with
  | nil => intro targets res vs _ hl; simp at hl
  | cons m0 l ih =>
    intro targets res vs hr hl hv
    rw [List.map_cons, List.nodup_cons] at hn
    cases k with
    | zero =>
      cases hl
      simp only [pMembers, hf] at hr
      split at hr
      · cases hr
      · cases hr
      · rename_i ok u hd
        obtain ⟨vs', hr', rfl⟩ := PRes.map_done hr
        have hok := hmod _ _ _ _ hd
        subst hok
        have huv : u = v := by
          simp only [List.getElem?_cons_zero, Option.some.injEq] at hv
          split at hv
          · cases hv; rfl
          · exact hv
        subst huv
        simp only [pMembers, find_set _ _ _ _ _ hf, h _ _ hd, List.set_cons_zero]
        rw [pMembers_same ms _ l (fun m' hm' => find_set_ne _ _ (fun he => hn.1 (List.mem_map.2 ⟨m', hm', he⟩)) _ _ _ _ hf), hr']
        rfl
    | succ k =>
      have hm : m ∈ l := List.mem_of_getElem? (by simpa using hl)
      have hne : m0.name ≠ m.name := fun he => hn.1 (List.mem_map.2 ⟨m, hm, he.symm⟩)
      have hfind := find_set_ne m.name m0.name hne y ms i x hf
      have step : ∀ res (u : Val), ((pMembers env true ms segs l targets.tail res).map (u :: ·) = .done true vs) →
          (pMembers env true (ms.set i (m.name, y)) segs l targets.tail res).map (u :: ·) = .done true (vs.set (k + 1) (if m.kind = .optional then .present w else w)) := by
        intro res u hr
        obtain ⟨vs', hr', rfl⟩ := PRes.map_done hr
        rw [ih hn.2 k _ _ _ hr' (by simpa using hl) (by simpa using hv)]
        rfl
      simp only [pMembers, hfind] at hr ⊢
      split at hr
      · split at hr
        · cases hr
        · cases hr
        · exact step _ _ hr
      · split at hr
        · exact step _ _ hr
        · exact step _ _ hr
        · simp only [if_true] at hr; cases hr

/-- Reading the edited document. -/
theorem pd_edit (hu : env.Unshared) (hd : env.DistinctNames) (t0 : Ty) (a b : Json) (va vb : Val) (hb : ∀ target segs, pd env b true t0 target segs = .done true vb) {t : Ty} {j j' : Json} {v v' : Val}
    (he : Edits env False t0 a b va vb t j j' v v') (ht : t.unshared = true) : ∀ target segs, pd env j true t target segs = .done true v → pd env j' true t target segs = .done true v' := by
  induction he with
  | here => intro target segs _; exact hb target segs
  | vec t js vs i x y v w hx hv _ ih =>
    intro target segs h
    have ht : t.unshared = true := by simpa [Ty.unshared] using ht
    rw [pd_vec env hu _ _ _ _ _ ht] at h ⊢
    obtain ⟨vs', h, hvs⟩ := PRes.map_done h
    cases hvs
    rw [pSame_edit t js i x y v w (ih ht) _ _ _ h hx hv]
    rfl
  | arr n t js vs i x y v w hx hv _ ih =>
    intro target segs h
    have ht : t.unshared = true := by simpa [Ty.unshared] using ht
    rw [pd_arr env hu _ _ _ _ _ _ ht] at h ⊢
    split at h
    · rename_i hn
      split at h
      · cases h
      · cases h
      · rename_i vs' h'
        cases h
        rw [if_pos (by simpa using hn), pSame_edit t js i x y v w (ih ht) _ _ _ h' hx hv]
      · cases h
    · cases h
  | tuple ts js vs i t x y v w hti hx hv _ ih =>
    intro target segs h
    have ht : Ty.unshareds ts = true := by simpa [Ty.unshared] using ht
    rw [pd_tuple env hu _ _ _ _ _ ht] at h ⊢
    split at h
    · rename_i hn
      obtain ⟨vs', h, hvs⟩ := PRes.map_done h
      cases hvs
      rw [if_pos (by simpa using hn), pTuple_edit js ts i t x y v w (ih ((Ty.unshareds_iff ts).1 ht t (List.mem_of_getElem? hti))) _ _ _ _ h hti hx hv]
      rfl
    · cases h
  | map o t ms kvs i k x y v w hx hn hk _ hv _ ih =>
    intro target segs h
    have ht : t.unshared = true := by simpa [Ty.unshared] using ht
    rw [pd_map env hu _ _ _ _ _ _ ht] at h ⊢
    obtain ⟨kvs', h', hvs⟩ := PRes.map_done h
    cases hvs
    rw [pEntries_edit t ms i k hk x y v w (ih ht) _ _ h' hx hn (mapOf_mem _ _ hv)]
    simp only [PRes.map, mapOf_reassign]
  | member c ms vs k m i x y v w hm hk hf hv _ ih =>
    intro target segs h
    have ht := hu c m (List.mem_of_getElem? hm)
    rw [pd_cls env hu] at h ⊢
    obtain ⟨vs', h, hvs⟩ := PRes.map_done h
    cases hvs
    have := pMembers_edit ms m i x y v w hf (ih ht) segs (fun target segs ok u h => (modes env hu x m.ty ht target segs ok u h).1) _ (hd c) k _ _ _ h hm (by rw [if_neg hk]; exact hv)
    rw [this, if_neg hk]
    rfl
  | optional c ms vs k m i x y v w hm hk hf hv _ ih =>
    intro target segs h
    have ht := hu c m (List.mem_of_getElem? hm)
    rw [pd_cls env hu] at h ⊢
    obtain ⟨vs', h, hvs⟩ := PRes.map_done h
    cases hvs
    have := pMembers_edit ms m i x y v w hf (ih ht) segs (fun target segs ok u h => (modes env hu x m.ty ht target segs ok u h).1) _ (hd c) k _ _ _ h hm (by rw [if_pos hk]; exact hv)
    rw [this, if_pos hk]
    rfl
  | uptr t x y v w _ ih =>
    intro target segs h
    have ht : t.unshared = true := by simpa [Ty.unshared] using ht
    rw [pd_uptr env hu _ _ _ _ _ ht] at h ⊢
    split at h
    · cases h
    · cases h
    · rename_i h'
      cases h
      rw [ih ht _ _ h']
    · cases h
  | variant ts i t x y v w hp => exact hp.elim
  | set t js vs i x y v w hp => exact hp.elim
  | shared c t x y v w hp => exact hp.elim
  | dictObj t ms kvs i k x y v w hp => exact hp.elim
  | dictArr t js kvs i k x y v w _ hx hv _ ih =>
    intro target segs h
    have ht : t.unshared = true := by simpa [Ty.unshared] using ht
    have hts : Ty.unshareds [.prim .str, t] = true := by simpa [Ty.unshared, Ty.unshareds] using ht
    rw [pd_dict env hu _ _ _ _ _ ht] at h ⊢
    obtain ⟨vs', hps, hvs⟩ := PRes.map_done h
    cases hvs
    rw [List.getElem?_map, Option.map_eq_some_iff] at hv
    obtain ⟨u, hu', hk⟩ := hv
    have key : ∀ z v0 target segs, pd env (.arr [.str k, z]) true (.tuple [.prim .str, t]) target segs = .done true v0 ↔
        ∃ v1, pd env z true t (target.components.tail.headD (env.fresh t)) (.index 1 :: segs) = .done true v1 ∧ v0 = .tup [.prim (.str k), v1] := by
      intro z v0 target segs
      rw [pd_tuple env hu _ _ _ _ _ hts]
      simp only [List.length_cons, List.length_nil, if_true, pTuple, pd_prim, desPrim]
      cases pd env z true t (target.components.tail.headD (env.fresh t)) (.index 1 :: segs) with
      | ub => simp [PRes.map]
      | threw => simp [PRes.map]
      | done ok v1 => cases ok <;> simp [PRes.map, eq_comm]
    rw [pSame_edit _ js i (.arr [.str k, x]) (.arr [.str k, y]) u (.tup [.prim (.str k), w]) (fun target segs hp => by
      rw [key] at hp ⊢
      obtain ⟨v1, h1, rfl⟩ := hp
      simp only [dictEntry, Prod.mk.injEq, true_and] at hk
      subst hk
      exact ⟨w, ih ht _ _ h1, rfl⟩) _ _ _ hps hx hu']
    simp only [PRes.map, List.map_set, dictEntry]
  | setRead t js us i x y v w _ hdec hq hx hv _ ih =>
    intro target segs _
    have ht : t.unshared = true := by simpa [Ty.unshared] using ht
    rw [pd_set env hu _ _ _ _ _ ht]
    have h' : pSame env t true js 0 segs = .done true us := pSame_ok env t true js us hdec
      (fun j hj v hv segs => (follows env hu j t ht (hq j hj).1).1 _ v hv (hq j hj).2 true segs) 0 segs
    rw [pSame_edit t js i x y v w (ih ht) _ _ _ h' hx hv]
    rfl

/-- The new node may be stated in terms of what documents denote. -/
theorem edit_read (hu : env.Unshared) (hd : env.DistinctNames) (t0 : Ty) (h0 : t0.unshared = true) (a b : Json) (va vb : Val) (hb : Decodes env t0 b (env.fresh t0) vb) (hf : Filled env t0 b)
    (hc : Calm env b) (hm : VariantsUnmasked env t0 b) {t : Ty} {j j' : Json} {v v' : Val}
    (he : Edits env False t0 a b va vb t j j' v v') (ht : t.unshared = true) (next : Nat) (h : deserializeThrow env t j next = .returned v) : deserializeThrow env t j' next = .returned v' := by
  have hb' : ∀ target segs, pd env b true t0 target segs = .done true vb := fun target segs =>
    (follows env hu b t0 h0 hc).1 target vb (decodes_any_target env b t0 hf _ _ _ hb) hm true segs
  rw [deserializeThrow_pd env hu t ht] at h ⊢
  split at h
  · cases h
  · cases h
  · rename_i ok u hp
    cases h
    have hok := (modes env hu j t ht _ _ _ _ hp).1
    subst hok
    rw [pd_edit hu hd t0 a b va vb hb' he ht _ _ hp]

/-! ## Writing -/

theorem SRes.map_some {α β : Type} {f : α → β} {r : SRes α} {σ : STab} {b : β} (h : r.map f = .done σ (some b)) : ∃ a, r = .done σ (some a) ∧ f a = b := by
  cases r with
  | ub => cases h
  | done σ' r =>
    cases r with
    | none => cases h
    | some a => cases h; exact ⟨a, rfl, rfl⟩

theorem serItems_edit (t : Ty) (x y : Json) (v w : Val) (h : ∀ segs σ σ', ser env v t segs σ = .done σ' (some x) → ser env w t segs σ = .done σ' (some y)) (vs : List Val) :
    ∀ (i : Nat) (ts : List Ty) (k : Nat) (segs : List Seg) (σ σ' : STab) (js : List Json), serItems env vs ts k segs σ = .done σ' (some js) → ts[i]? = some t → vs[i]? = some v → js[i]? = some x →
      serItems env (vs.set i w) ts k segs σ = .done σ' (some (js.set i y)) := by
  induction vs with
  | nil => intro i ts k segs σ σ' js _ _ hv; simp at hv
  | cons u vs ih =>
    intro i ts k segs σ σ' js hr ht hv hx
    cases ts with
    | nil => simp at ht
    | cons t' ts =>
      rw [serItems] at hr
      split at hr
      · cases hr
      · cases hr
      · rename_i σ1 j hs
        obtain ⟨js', hr', rfl⟩ := SRes.map_some hr
        cases i with
        | zero =>
          cases ht; cases hv; cases hx
          rw [List.set_cons_zero, List.set_cons_zero, serItems, h _ _ _ hs]
          simp only [hr', SRes.map, Option.map]
        | succ i =>
          rw [List.set_cons_succ, List.set_cons_succ, serItems, hs]
          simp only [ih i ts _ _ _ _ _ hr' ht hv hx, SRes.map, Option.map]

theorem serSet_edit (t : Ty) (x y : Json) (v w : Val) (h : ∀ segs σ σ', ser env v t segs σ = .done σ' (some x) → ser env w t segs σ = .done σ' (some y)) (vs : List Val) :
    ∀ (i : Nat) (segs : List Seg) (σ σ' : STab) (js : List Json), serSet env vs t segs σ = .done σ' (some js) → vs[i]? = some v → js[i]? = some x →
      serSet env (vs.set i w) t segs σ = .done σ' (some (js.set i y)) := by
  induction vs with
  | nil => intro i segs σ σ' js _ hv; simp at hv
  | cons u vs ih =>
    intro i segs σ σ' js hr hv hx
    rw [serSet] at hr
    split at hr
    · cases hr
    · cases hr
    · rename_i σ1 j hs
      obtain ⟨js', hr', rfl⟩ := SRes.map_some hr
      cases i with
      | zero =>
        cases hv; cases hx
        rw [List.set_cons_zero, List.set_cons_zero, serSet, h _ _ _ hs]
        simp only [hr', SRes.map, Option.map]
      | succ i =>
        rw [List.set_cons_succ, List.set_cons_succ, serSet, hs]
        simp only [ih i _ _ _ _ hr' hv hx, SRes.map, Option.map]

/-- Writing the entries of a dictionary one of which is replaced. -/
theorem serEntries_set (t : Ty) (k : Str) (x y : Json) (v w : Val) (h : ∀ segs σ σ', ser env v t segs σ = .done σ' (some x) → ser env w t segs σ = .done σ' (some y))
    (kvs : List (Str × Val)) : ∀ (i : Nat) (segs : List Seg) (σ σ' : STab) (ms : List (Str × Json)), serEntries (kvs.map fun p => (p.1, ser env p.2 t)) segs σ = .done σ' (some ms) →
      kvs[i]? = some (k, v) → ms[i]? = some (k, x) →
      serEntries ((kvs.set i (k, w)).map fun p => (p.1, ser env p.2 t)) segs σ = .done σ' (some (ms.set i (k, y))) := by
  induction kvs with
  | nil => intro i segs σ σ' ms _ hv; simp at hv
  | cons p kvs ih =>
    intro i segs σ σ' ms hr hv hx
    obtain ⟨k0, u⟩ := p
    rw [List.map_cons, serEntries] at hr
    split at hr
    · cases hr
    · cases hr
    · rename_i σ1 j hs
      obtain ⟨ms', hr', rfl⟩ := SRes.map_some hr
      cases i with
      | zero =>
        cases hv; cases hx
        rw [List.set_cons_zero, List.set_cons_zero, List.map_cons, serEntries, h _ _ _ hs]
        simp only [hr', SRes.map, Option.map]
      | succ i =>
        rw [List.set_cons_succ, List.set_cons_succ, List.map_cons, serEntries, hs]
        simp only [ih i _ _ _ _ hr' hv hx, SRes.map, Option.map]

/-- Writing the entries of a map one of which is replaced. -/
theorem serEntries_edit (t : Ty) (k : Str) (x y : Json) (v w : Val) (h : ∀ segs σ σ', ser env v t segs σ = .done σ' (some x) → ser env w t segs σ = .done σ' (some y)) (kvs : List (Str × Val)) :
    ∀ (i : Nat) (segs : List Seg) (σ σ' : STab) (ms : List (Str × Json)), serEntries (kvs.map fun p => (p.1, ser env p.2 t)) segs σ = .done σ' (some ms) →
      (kvs.map (·.1)).Nodup → (∀ u, (k, u) ∈ kvs → u = v) → ms[i]? = some (k, x) →
      serEntries ((reassign k w kvs).map fun p => (p.1, ser env p.2 t)) segs σ = .done σ' (some (ms.set i (k, y))) := by
  induction kvs with
  | nil => intro i segs σ σ' ms hr _ _ hx; cases hr; simp at hx
  | cons p kvs ih =>
    intro i segs σ σ' ms hr hn hv hx
    obtain ⟨k0, u⟩ := p
    rw [List.map_cons, List.nodup_cons] at hn
    rw [List.map_cons, serEntries] at hr
    split at hr
    · cases hr
    · cases hr
    · rename_i σ1 j hs
      obtain ⟨ms', hr', rfl⟩ := SRes.map_some hr
      cases i with
      | zero =>
        cases hx
        have := hv u (by simp)
        subst this
        have he : reassign k0 w ((k0, u) :: kvs) = (k0, w) :: kvs := by
          have := reassign_other (w := w) hn.1
          unfold reassign at this ⊢
          rw [List.map_cons, this, if_pos rfl]
        rw [he, List.map_cons, List.set_cons_zero, serEntries, h _ _ _ hs]
        simp only [hr', SRes.map, Option.map]
      | succ i =>
        have hkeys : k ∈ kvs.map (·.1) := by
          have : ∀ (kvs : List (Str × Val)) σ σ' ms', serEntries (kvs.map fun p => (p.1, ser env p.2 t)) segs σ = .done σ' (some ms') → ms'.map (·.1) = kvs.map (·.1) := by
            intro kvs
            induction kvs with
            | nil => intro σ σ' ms' h; cases h; rfl
            | cons q kvs ih =>
              intro σ σ' ms' h
              rw [List.map_cons, serEntries] at h
              split at h
              · cases h
              · cases h
              · obtain ⟨ms'', h', rfl⟩ := SRes.map_some h
                simp [ih _ _ _ h']
          rw [← this _ _ _ _ hr']
          exact List.mem_map.2 ⟨_, List.mem_of_getElem? (by simpa using hx), rfl⟩
        have hne : k0 ≠ k := fun he => hn.1 (he ▸ hkeys)
        have he : reassign k w ((k0, u) :: kvs) = (k0, u) :: reassign k w kvs := by simp [reassign, hne]
        rw [he, List.map_cons, List.set_cons_succ, serEntries, hs]
        simp only [ih i _ _ _ _ hr' hn.2 (fun u hu => hv u (by simp [hu])) (by simpa using hx), SRes.map, Option.map]

theorem serMembers_edit (m : Member) (x y : Json) (v w v0 w0 : Val) (hv0 : fieldOf m.kind v0 = .here v) (hw0 : fieldOf m.kind w0 = .here w)
    (h : ∀ segs σ σ', ser env v m.ty segs σ = .done σ' (some x) → ser env w m.ty segs σ = .done σ' (some y)) (vs : List Val) :
    ∀ (k i : Nat) (l : List Member) (segs : List Seg) (σ σ' : STab) (fs : List (Str × Json)), serMembers env vs l segs σ = .done σ' (some fs) →
      (l.map (·.name)).Nodup → l[k]? = some m → vs[k]? = some v0 → findMember m.name fs = some (i, x) →
      serMembers env (vs.set k w0) l segs σ = .done σ' (some (fs.set i (m.name, y))) := by
  induction vs with
  | nil => intro k i l segs σ σ' fs _ _ _ hv; simp at hv
  | cons u vs ih =>
    intro k i l segs σ σ' fs hr hn hl hv hf
    cases l with
    | nil => simp at hl
    | cons m0 l =>
      rw [List.map_cons, List.nodup_cons] at hn
      rw [serMembers_cons] at hr
      cases k with
      | zero =>
        cases hl; cases hv
        rw [hv0] at hr
        simp only at hr
        rw [List.set_cons_zero, serMembers_cons, hw0]
        simp only
        split at hr
        · cases hr
        · obtain ⟨hfi, -⟩ := find_get _ _ _ _ hf
          exact absurd (serMembers_names env vs _ _ _ _ _ hr _ (List.mem_map.2 ⟨_, List.mem_of_getElem? hfi, rfl⟩)) hn.1
        · rename_i σ1 j hs
          obtain ⟨fs', hr', rfl⟩ := SRes.map_some hr
          have : i = 0 ∧ j = x := by simpa [findMember, eq_comm] using hf
          obtain ⟨rfl, rfl⟩ := this
          rw [h _ _ _ hs]
          simp only [hr', SRes.map, Option.map, List.set_cons_zero]
      | succ k =>
        have hm : m ∈ l := List.mem_of_getElem? (by simpa using hl)
        have hne : m0.name ≠ m.name := fun he => hn.1 (List.mem_map.2 ⟨m, hm, he.symm⟩)
        rw [List.set_cons_succ, serMembers_cons]
        split at hr
        · exact ih k i l _ _ _ _ hr hn.2 (by simpa using hl) (by simpa using hv) hf
        · cases hr
        · split at hr
          · cases hr
          · exact ih k i l _ _ _ _ hr hn.2 (by simpa using hl) (by simpa using hv) hf
          · obtain ⟨fs', hr', rfl⟩ := SRes.map_some hr
            simp only [findMember, if_neg hne] at hf
            cases hf' : findMember m.name fs' with
            | none => rw [hf'] at hf; cases hf
            | some r =>
              obtain ⟨i', x'⟩ := r
              rw [hf'] at hf
              cases hf
              simp only [ih k i' l _ _ _ _ hr' hn.2 (by simpa using hl) (by simpa using hv) hf', SRes.map, Option.map, List.set_cons_succ]

theorem iterate_reassign (o : Bool) (segs : List Seg) (k : Str) (w : Val) (kvs : List (Str × Val)) : iterate env o segs (reassign k w kvs) = reassign k w (iterate env o segs kvs) :=
  iterate_map env o segs (fun p => if p.1 = k then w else p.2) kvs

/-- Writing the edited value. -/
theorem edit_write (hd : env.DistinctNames) (hfair : env.Fair) (t0 : Ty) (a b : Json) (va vb : Val)
    (hb : ∀ segs σ σ', ser env va t0 segs σ = .done σ' (some a) → ser env vb t0 segs σ = .done σ' (some b)) {t : Ty} {j j' : Json} {v v' : Val}
    (he : Edits env True t0 a b va vb t j j' v v') : ∀ segs σ σ', ser env v t segs σ = .done σ' (some j) → ser env v' t segs σ = .done σ' (some j') := by
  induction he with
  | here => exact hb
  | vec t js vs i x y v w hx hv _ ih =>
    intro segs σ σ' h
    rw [ser] at h ⊢
    obtain ⟨js', h', hj⟩ := SRes.map_some h
    cases hj
    rw [List.length_set, serItems_edit t x y v w ih vs i _ _ _ _ _ _ h' (by
      obtain ⟨hlt, -⟩ := List.getElem?_eq_some_iff.1 hv
      simp [hlt]) hv hx]
    rfl
  | arr n t js vs i x y v w hx hv _ ih =>
    intro segs σ σ' h
    rw [ser] at h ⊢
    split at h
    · rename_i hn
      obtain ⟨js', h', hj⟩ := SRes.map_some h
      cases hj
      rw [if_pos (by simpa using hn), serItems_edit t x y v w ih vs i _ _ _ _ _ _ h' (by
        obtain ⟨hlt, -⟩ := List.getElem?_eq_some_iff.1 hv
        simp [← hn, hlt]) hv hx]
      rfl
    · cases h
  | tuple ts js vs i t x y v w hti hx hv _ ih =>
    intro segs σ σ' h
    rw [ser] at h ⊢
    obtain ⟨js', h', hj⟩ := SRes.map_some h
    cases hj
    rw [serItems_edit t x y v w ih vs i _ _ _ _ _ _ h' hti hv hx]
    rfl
  | map o t ms kvs i k x y v w hx _ _ hn hv _ ih =>
    intro segs σ σ' h
    rw [ser, serVals_eq, iterate_map env o segs (fun p => ser env p.2 t)] at h ⊢
    obtain ⟨ms', h', hj⟩ := SRes.map_some h
    cases hj
    have hp := iterate_perm env hfair o segs kvs hn
    rw [iterate_reassign, serEntries_edit t k x y v w ih _ i _ _ _ _ h' ((hp.map _).nodup_iff.2 hn) (fun u hu => ?_) hx]
    · rfl
    · have hu := hp.mem_iff.1 hu
      have : ∀ (l : List (Str × Val)), (l.map (·.1)).Nodup → (k, u) ∈ l → (k, v) ∈ l → u = v := by
        intro l
        induction l with
        | nil => intro _ h; cases h
        | cons p l ih =>
          intro hn h1 h2
          rw [List.map_cons, List.nodup_cons] at hn
          rcases List.mem_cons.1 h1 with h1 | h1
          · rcases List.mem_cons.1 h2 with h2 | h2
            · exact (Prod.mk.inj (h1.trans h2.symm)).2
            · exact absurd (List.mem_map.2 ⟨_, h2, by rw [← h1]⟩) hn.1
          · rcases List.mem_cons.1 h2 with h2 | h2
            · exact absurd (List.mem_map.2 ⟨_, h1, by rw [← h2]⟩) hn.1
            · exact ih hn.2 h1 h2
      exact this kvs hn hu hv
  | member c ms vs k m i x y v w hm hk hf hv _ ih =>
    intro segs σ σ' h
    rw [ser] at h ⊢
    obtain ⟨ms', h', hj⟩ := SRes.map_some h
    cases hj
    rw [serMembers_edit m x y v w v w (by cases hk' : m.kind <;> simp_all [fieldOf]) (by cases hk' : m.kind <;> simp_all [fieldOf]) ih vs k i _ _ _ _ _ h' (hd c) hm hv hf]
    rfl
  | optional c ms vs k m i x y v w hm hk hf hv _ ih =>
    intro segs σ σ' h
    rw [ser] at h ⊢
    obtain ⟨ms', h', hj⟩ := SRes.map_some h
    cases hj
    rw [serMembers_edit m x y v w (.present v) (.present w) (by rw [hk]; rfl) (by rw [hk]; rfl) ih vs k i _ _ _ _ _ h' (hd c) hm hv hf]
    rfl
  | uptr t x y v w _ ih =>
    intro segs σ σ' h
    rw [ser] at h ⊢
    exact ih _ _ _ h
  | variant ts i t x y v w _ hti _ ih =>
    intro segs σ σ' h
    rw [ser, hti] at h ⊢
    exact ih _ _ _ h
  | set t js vs i x y v w _ hx hv _ ih =>
    intro segs σ σ' h
    rw [ser] at h ⊢
    obtain ⟨js', h', hj⟩ := SRes.map_some h
    cases hj
    rw [serSet_edit t x y v w ih vs i _ _ _ _ h' hv hx]
    rfl
  | shared c t x y v w _ hx _ ih =>
    intro segs σ σ' h
    rw [ser] at h ⊢
    split at h
    · cases h
      cases hx
    · split at h
      · cases h
      · cases h
      · rename_i hs
        cases h
        rw [ih _ _ _ hs]
  | dictObj t ms kvs i k x y v w _ hx hv _ ih =>
    intro segs σ σ' h
    rw [ser, serVals_eq] at h ⊢
    obtain ⟨ms', h', hj⟩ := SRes.map_some h
    cases hj
    rw [serEntries_set t k x y v w ih kvs i _ _ _ _ h' hv hx]
    rfl
  | dictArr t js kvs i k x y v w hp => exact absurd trivial hp
  | setRead t js us i x y v w hp => exact absurd trivial hp

end

end Verif.Core
