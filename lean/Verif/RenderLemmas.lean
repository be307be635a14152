import Verif.Render

/-!
# Serialization of finite values

`ser_shows`: serialization of a finite value succeeds with a document that shows the value, in which each
shared object is written in full once and references are to earlier objects; the path texts resolve to the
places of the full texts.
-/

namespace Verif.Core
open Verif.Numeric

/-- The addresses in a reference table. -/
abbrev STab.keys (σ : STab) : List Nat := σ.map (·.1)

/-- No entry for the root. -/
def NE (σ : STab) : Prop := ∀ a s, (a, s) ∈ σ → s ≠ []

/-- Whatever is reached from an object in the table is in the table. -/
def Closed (H : Heap) (σ : STab) : Prop := ∀ a ∈ σ.keys, ∀ t w, H a = some (t, w) → ∀ b ∈ addrs w, b ∈ σ.keys

/-- What serializing some part of the document does to the reference table: `new` are the entries made,
`tr` the occurrences, `res` evaluates token lists relative to the part, `ads` the addresses reached. -/
structure Rend (H : Heap) (safe : Prop) (segs : List Seg) (pos : List Nat) (σ new : STab) (tr : List Occ)
    (res : List Str → Option (List Nat)) (ads : List Nat) : Prop where
  good : Good σ.keys tr
  keys : new.keys = (fulls tr).reverse
  refs : ∀ a p, Occ.ref a p ∈ tr → ∃ s, (a, s) ∈ new ++ σ ∧ p = pathStr s ∧ (safe → NE σ → s ≠ [])
  sub : ∀ a ∈ fulls tr, a ∈ ads
  refsub : ∀ a p, Occ.ref a p ∈ tr → a ∈ ads
  all : Closed H σ → Closed H (new ++ σ) ∧ ∀ a ∈ ads, a ∈ STab.keys (new ++ σ)
  locs : safe → ∀ a s', (a, s') ∈ new → ∃ s q, s' = s ++ segs ∧ Occ.full a (q ++ pos) ∈ tr ∧
    (∀ x ∈ s, x.Plain) ∧ res (s.reverse.map segToken) = some q.reverse

theorem Rend.empty (H : Heap) (safe : Prop) (segs : List Seg) (pos : List Nat) (σ : STab) (res : List Str → Option (List Nat)) :
    Rend H safe segs pos σ [] [] res [] where
  good := trivial
  keys := rfl
  refs := by simp
  sub := by simp [fulls]
  refsub := by simp
  all := fun h => ⟨h, by simp⟩
  locs := by simp

theorem Rend.mono {H : Heap} {safe safe' : Prop} {segs : List Seg} {pos : List Nat} {σ new : STab} {tr : List Occ}
    {res res' : List Str → Option (List Nat)} {ads ads' : List Nat} (h : Rend H safe segs pos σ new tr res ads)
    (hs : safe' → safe) (hr : safe' → ∀ ts q, res ts = some q → res' ts = some q) (ha : ∀ a, a ∈ ads ↔ a ∈ ads') :
    Rend H safe' segs pos σ new tr res' ads' where
  good := h.good
  keys := h.keys
  refs := fun a p hp => by
    obtain ⟨s, h1, h2, h3⟩ := h.refs a p hp
    exact ⟨s, h1, h2, fun hh => h3 (hs hh)⟩
  sub := fun a h1 => (ha a).1 (h.sub a h1)
  refsub := fun a p h1 => (ha a).1 (h.refsub a p h1)
  all := fun hc => ⟨(h.all hc).1, fun a h1 => (h.all hc).2 a ((ha a).2 h1)⟩
  locs := fun hh a s' hm => by
    obtain ⟨s, q, h1, h2, h3, h4⟩ := h.locs (hs hh) a s' hm
    exact ⟨s, q, h1, h2, h3, hr hh _ _ h4⟩

/-- From a child to its parent. -/
theorem Rend.lift {H : Heap} {safe : Prop} {seg : Seg} {segs : List Seg} {k : Nat} {pos : List Nat} {σ new : STab} {tr : List Occ}
    {res res' : List Str → Option (List Nat)} {ads : List Nat} (h : Rend H safe (seg :: segs) (k :: pos) σ new tr res ads)
    (hp : safe → seg.Plain) (hr : safe → ∀ ts q, res ts = some q → res' (segToken seg :: ts) = some (k :: q)) :
    Rend H safe segs pos σ new tr res' ads where
  good := h.good
  keys := h.keys
  refs := h.refs
  sub := h.sub
  refsub := h.refsub
  all := h.all
  locs := fun hh a s' hm => by
    obtain ⟨s, q, h1, h2, h3, h4⟩ := h.locs hh a s' hm
    refine ⟨s ++ [seg], q ++ [k], by simp [h1], by simpa using h2, ?_, by simpa using hr hh _ _ h4⟩
    intro x hx
    rcases List.mem_append.1 hx with hx | hx
    · exact h3 x hx
    · simp only [List.mem_singleton] at hx
      exact hx ▸ hp hh

/-- One part after the other. -/
theorem Rend.append {H : Heap} {safe : Prop} {segs : List Seg} {pos : List Nat} {σ new new' : STab} {tr tr' : List Occ}
    {res : List Str → Option (List Nat)} {ads ads' : List Nat} (h : Rend H safe segs pos σ new tr res ads)
    (h' : Rend H safe segs pos (new ++ σ) new' tr' res ads') (hne : safe → NE new) :
    Rend H safe segs pos σ (new' ++ new) (tr ++ tr') res (ads ++ ads') where
  good := by
    rw [Good_append]
    refine ⟨h.good, ?_⟩
    have := h'.good
    rwa [STab.keys, List.map_append, ← STab.keys, h.keys] at this
  keys := by
    have h1 := h.keys
    have h2 := h'.keys
    simp only [STab.keys] at h1 h2
    simp [STab.keys, h1, h2, fulls_append]
  refs := fun a p hp => by
    rcases List.mem_append.1 hp with hp | hp
    · obtain ⟨s, h1, h2, h3⟩ := h.refs a p hp
      exact ⟨s, by rw [List.append_assoc]; exact List.mem_append.2 (.inr h1), h2, h3⟩
    · obtain ⟨s, h1, h2, h3⟩ := h'.refs a p hp
      refine ⟨s, by rwa [List.append_assoc], h2, fun hh hn => h3 hh ?_⟩
      intro b s hm
      rcases List.mem_append.1 hm with hm | hm
      · exact hne hh b s hm
      · exact hn b s hm
  sub := fun a ha => by
    rw [fulls_append] at ha
    rcases List.mem_append.1 ha with ha | ha
    · exact List.mem_append.2 (.inl (h.sub a ha))
    · exact List.mem_append.2 (.inr (h'.sub a ha))
  refsub := fun a p ha => by
    rcases List.mem_append.1 ha with ha | ha
    · exact List.mem_append.2 (.inl (h.refsub a p ha))
    · exact List.mem_append.2 (.inr (h'.refsub a p ha))
  all := fun hc => by
    obtain ⟨h1, h2⟩ := h.all hc
    obtain ⟨h3, h4⟩ := h'.all h1
    rw [← List.append_assoc] at h3 h4
    refine ⟨h3, fun a ha => ?_⟩
    rcases List.mem_append.1 ha with ha | ha
    · have := h2 a ha
      simp only [STab.keys, List.map_append, List.mem_append] at this ⊢
      grind
    · exact h4 a ha
  locs := fun hh a s' hm => by
    rcases List.mem_append.1 hm with hm | hm
    · obtain ⟨s, q, h1, h2, h3, h4⟩ := h'.locs hh a s' hm
      exact ⟨s, q, h1, List.mem_append.2 (.inr h2), h3, h4⟩
    · obtain ⟨s, q, h1, h2, h3, h4⟩ := h.locs hh a s' hm
      exact ⟨s, q, h1, List.mem_append.2 (.inl h2), h3, h4⟩

theorem Rend.ne {H : Heap} {safe : Prop} {seg : Seg} {segs : List Seg} {pos : List Nat} {σ new : STab} {tr : List Occ}
    {res : List Str → Option (List Nat)} {ads : List Nat} (h : Rend H safe (seg :: segs) pos σ new tr res ads) :
    safe → NE new := by
  intro hh a s' hm
  obtain ⟨s, q, h1, -⟩ := h.locs hh a s' hm
  rw [h1]
  simp

/-- Without shared objects there is nothing to say about places. -/
theorem Rend.noaddr {H : Heap} {safe : Prop} {segs segs' : List Seg} {pos pos' : List Nat} {σ new : STab} {tr : List Occ}
    {res res' : List Str → Option (List Nat)} {ads : List Nat} (h : Rend H safe segs pos σ new tr res ads) :
    (ads = [] → new = []) ∧ Rend H (ads = []) segs' pos' σ new tr res' ads := by
  have hnew : ads = [] → new = [] := by
    intro he
    have hf : fulls tr = [] := by
      cases hf : fulls tr with
      | nil => rfl
      | cons a l => have := h.sub a (by simp [hf]); simp [he] at this
    have := h.keys
    rw [hf] at this
    simpa using this
  refine ⟨hnew, ⟨h.good, h.keys, ?_, h.sub, h.refsub, h.all, ?_⟩⟩
  · intro a p hp
    obtain ⟨s, h1, h2, -⟩ := h.refs a p hp
    refine ⟨s, h1, h2, fun he => ?_⟩
    have := h.refsub a p hp
    simp [he] at this
  · intro he a s' hm
    rw [hnew he] at hm
    simp at hm

/-! ## Evaluating tokens in lists -/

/-- Evaluation of a pointer in the elements of an array from position `k` on. -/
def itemsGet (k : Nat) (js : List Json) : List Str → Option (List Nat)
  | [] => none
  | t :: ts =>
      match tokenIndex t with
      | none => none
      | some n => if n < k then none else
          match js[n - k]? with
          | none => none
          | some j => (pointerGet j ts).map (n :: ·)

theorem itemsGet_zero (js : List Json) (ts : List Str) (q : List Nat) (h : itemsGet 0 js ts = some q) :
    pointerGet (.arr js) ts = some q := by
  cases ts with
  | nil => simp [itemsGet] at h
  | cons t ts =>
    simp only [itemsGet, pointerGet] at h ⊢
    cases ht : tokenIndex t with
    | none => simp [ht] at h
    | some n =>
      simp only [ht, Nat.not_lt_zero, if_false, Nat.sub_zero] at h ⊢
      exact h

theorem itemsGet_succ (k : Nat) (j : Json) (js : List Json) (ts : List Str) (q : List Nat)
    (h : itemsGet (k + 1) js ts = some q) : itemsGet k (j :: js) ts = some q := by
  cases ts with
  | nil => simp [itemsGet] at h
  | cons t ts =>
    simp only [itemsGet] at h ⊢
    cases ht : tokenIndex t with
    | none => simp [ht] at h
    | some n =>
      simp only [ht] at h ⊢
      by_cases hn : n < k + 1
      · simp [hn] at h
      · rw [if_neg hn] at h
        rw [if_neg (by omega)]
        have : n - k = (n - (k + 1)) + 1 := by omega
        rw [this, List.getElem?_cons_succ]
        exact h

theorem itemsGet_here (k : Nat) (hk : k < 2 ^ 32 - 1) (j : Json) (js : List Json) (ts : List Str) (q : List Nat)
    (h : pointerGet j ts = some q) : itemsGet k (j :: js) (segToken (.index k) :: ts) = some (k :: q) := by
  simp [itemsGet, segToken, tokenIndex_decimal k hk, h]

/-- Evaluation of a pointer in the members of an object from position `k` on. -/
def membersGet (k : Nat) (js : List (Str × Json)) : List Str → Option (List Nat)
  | [] => none
  | t :: ts =>
      match findMember t js with
      | none => none
      | some (i, j) => (pointerGet j ts).map ((k + i) :: ·)

theorem membersGet_zero (js : List (Str × Json)) (ts : List Str) (q : List Nat) (h : membersGet 0 js ts = some q) :
    pointerGet (.obj js) ts = some q := by
  cases ts with
  | nil => simp [membersGet] at h
  | cons t ts =>
    simp only [membersGet, pointerGet] at h ⊢
    cases hf : findMember t js with
    | none => simp [hf] at h
    | some p => obtain ⟨i, j⟩ := p; simpa [hf] using h

theorem findMember_mem {α : Type} {name : Str} {js : List (Str × α)} {i : Nat} {a : α} (h : findMember name js = some (i, a)) :
    (name, a) ∈ js := by
  induction js generalizing i with
  | nil => simp [findMember] at h
  | cons p js ih =>
    obtain ⟨k, b⟩ := p
    simp only [findMember] at h
    split at h
    · rename_i hk
      simp only [Option.some.injEq, Prod.mk.injEq] at h
      simp [hk, h.2]
    · split at h
      · simp at h
      · rename_i hf
        simp only [Option.some.injEq, Prod.mk.injEq] at h
        obtain ⟨-, rfl⟩ := h
        exact List.mem_cons_of_mem _ (ih hf)

theorem membersGet_succ (k : Nat) (key : Str) (j : Json) (js : List (Str × Json)) (hn : key ∉ js.map (·.1)) (ts : List Str)
    (q : List Nat) (h : membersGet (k + 1) js ts = some q) : membersGet k ((key, j) :: js) ts = some q := by
  cases ts with
  | nil => simp [membersGet] at h
  | cons t ts =>
    simp only [membersGet] at h ⊢
    cases hf : findMember t js with
    | none => simp [hf] at h
    | some p =>
      obtain ⟨i, j'⟩ := p
      have hne : key ≠ t := by
        intro he
        exact hn (List.mem_map.2 ⟨(t, j'), findMember_mem hf, he.symm⟩)
      simp only [hf] at h
      simp only [findMember, if_neg hne, hf]
      rw [← h]
      have : k + (i + 1) = k + 1 + i := by omega
      simp only [this]

theorem membersGet_here (k : Nat) (key : Str) (hk : PlainName key) (j : Json) (js : List (Str × Json)) (ts : List Str) (q : List Nat)
    (h : pointerGet j ts = some q) : membersGet k ((key, j) :: js) (segToken (Seg.name key) :: ts) = some (k :: q) := by
  simp [membersGet, Seg.name, hk.1, segToken, findMember, h]

theorem name_plain (key : Str) (h : PlainName key) : (Seg.name key).Plain := by
  simp [Seg.name, h.1, Seg.Plain, h.2]

/-! ## The main induction -/

theorem MembersTy_cons (env : Env) (H : Heap) (v : Val) (vs : List Val) (m : Member) (ms : List Member) :
    MembersTy env H (v :: vs) (m :: ms) ↔
      (match fieldOf m.kind v with
      | .skip => True
      | .bad => False
      | .here w => HasTy env H w m.ty) ∧ MembersTy env H vs ms := by
  obtain ⟨name, kind, ty⟩ := m
  cases kind <;> cases v <;> simp only [MembersTy, fieldOf]

theorem fieldOf_skip {k : Kind} {v : Val} (h : fieldOf k v = .skip) : k = .optional ∧ v = .absent := by
  cases k <;> cases v <;> simp_all [fieldOf]

theorem addrs_field {k : Kind} {v w : Val} (h : fieldOf k v = .here w) : addrs v = addrs w := by
  rcases fieldOf_here h with ⟨-, rfl⟩ | ⟨-, rfl⟩
  · simp [addrs]
  · rfl

theorem finite_field {k : Kind} {v w : Val} (h : fieldOf k v = .here w) : finite v = finite w := by
  rcases fieldOf_here h with ⟨-, rfl⟩ | ⟨-, rfl⟩
  · simp [finite]
  · rfl

theorem PathSafe_field {k : Kind} {v w : Val} (h : fieldOf k v = .here w) : PathSafe v = PathSafe w := by
  rcases fieldOf_here h with ⟨-, rfl⟩ | ⟨-, rfl⟩
  · simp [PathSafe]
  · rfl

/-- The addresses reached from a value belong to smaller values. -/
theorem addrs_size (env : Env) (H : Heap) : ∀ v t, HasTy env H v t → ∀ a ∈ addrs v, ∃ t' w, H a = some (t', w) ∧ sizeOf w < sizeOf v := by
  intro v
  induction v using Val.strong with
  | h v ih =>
  intro t ht a ha
  have list : ∀ vs : List Val, sizeOf vs < sizeOf v → (∀ w ∈ vs, ∃ t, HasTy env H w t) → a ∈ addrsAll vs →
      ∃ t' w, H a = some (t', w) ∧ sizeOf w < sizeOf v := by
    intro vs hvs hty hm
    obtain ⟨w, hw, haw⟩ := (mem_addrsAll a vs).1 hm
    obtain ⟨t', ht'⟩ := hty w hw
    have hsz := mem_size hw
    obtain ⟨t'', x, h1, h2⟩ := ih w (by omega) t' ht' a haw
    exact ⟨t'', x, h1, by omega⟩
  have vals : ∀ kvs : List (Str × Val), sizeOf kvs < sizeOf v → (∀ p ∈ kvs, ∃ t, HasTy env H p.2 t) → a ∈ addrsVals kvs →
      ∃ t' w, H a = some (t', w) ∧ sizeOf w < sizeOf v := by
    intro kvs hvs hty hm
    obtain ⟨w, hw, haw⟩ := (mem_addrsVals a kvs).1 hm
    obtain ⟨t', ht'⟩ := hty w hw
    have hsz := mem_size_kv hw
    obtain ⟨t'', x, h1, h2⟩ := ih w.2 (by omega) t' ht' a haw
    exact ⟨t'', x, h1, by omega⟩
  have tys : ∀ (vs : List Val) (ts : List Ty), HasTys env H vs ts → ∀ w ∈ vs, ∃ t, HasTy env H w t := by
    intro vs
    induction vs with
    | nil => simp
    | cons x vs ihv =>
      intro ts h w hw
      cases ts with
      | nil => simp [HasTys] at h
      | cons t ts =>
        simp only [HasTys] at h
        rcases List.mem_cons.1 hw with rfl | hw
        · exact ⟨t, h.1⟩
        · exact ihv ts h.2 w hw
  unfold HasTy at ht
  split at ht
  · simp [addrs] at ha
  · rename_i vs t
    exact list vs (by simp) (fun w hw => ⟨t, (AllTy_iff _ _ _ _).1 ht w hw⟩) ha
  · rename_i vs n t
    exact list vs (by simp) (fun w hw => ⟨t, (AllTy_iff _ _ _ _).1 ht.2 w hw⟩) ha
  · rename_i vs ts
    exact list vs (by simp) (tys vs ts ht) ha
  · rename_i vs t
    exact list vs (by simp) (fun w hw => ⟨t, (AllTy_iff _ _ _ _).1 ht.1 w hw⟩) ha
  · rename_i kvs o t
    exact vals kvs (by simp) (fun w hw => ⟨t, (ValsTy_iff _ _ _ _).1 ht.1 w hw⟩) ha
  · rename_i kvs t
    exact vals kvs (by simp) (fun w hw => ⟨t, (ValsTy_iff _ _ _ _).1 ht w hw⟩) ha
  · rename_i i w ts
    obtain ⟨t, -, ht⟩ := ht
    obtain ⟨t'', x, h1, h2⟩ := ih w (by simp; omega) t ht a ha
    exact ⟨t'', x, h1, by simp; omega⟩
  · rename_i vs c
    have mem : ∀ (vs : List Val) (ms : List Member), (∀ w, sizeOf w < 1 + sizeOf vs → ∀ t, HasTy env H w t → ∀ a ∈ addrs w,
        ∃ t' x, H a = some (t', x) ∧ sizeOf x < sizeOf w) → MembersTy env H vs ms → a ∈ addrsAll vs →
        ∃ t' w, H a = some (t', w) ∧ sizeOf w < 1 + sizeOf vs := by
      intro vs
      induction vs with
      | nil => simp [addrsAll]
      | cons v vs ihv =>
        intro ms hsz hty hm
        cases ms with
        | nil => simp [MembersTy] at hty
        | cons m ms =>
          rw [MembersTy_cons] at hty
          simp only [addrsAll, List.mem_append] at hm
          simp only [List.cons.sizeOf_spec] at hsz ⊢
          rcases hm with hm | hm
          · cases hf : fieldOf m.kind v with
            | bad => simp [hf] at hty
            | skip => obtain ⟨-, rfl⟩ := fieldOf_skip hf; simp [addrs] at hm
            | here w =>
              rw [hf] at hty
              rw [addrs_field hf] at hm
              have hs := fieldOf_size hf
              obtain ⟨t', x, h1, h2⟩ := hsz w (by omega) _ hty.1 a hm
              exact ⟨t', x, h1, by omega⟩
          · obtain ⟨t', x, h1, h2⟩ := ihv ms (fun w hw => hsz w (by omega)) hty.2 hm
            exact ⟨t', x, h1, by omega⟩
    have := mem vs _ (fun w hw => ih w (by simp; omega)) ht ha
    simpa using this
  · rename_i w t
    obtain ⟨t'', x, h1, h2⟩ := ih w (by simp) t ht a ha
    exact ⟨t'', x, h1, by simp; omega⟩
  · rename_i b w t
    simp only [addrs, List.mem_cons] at ha
    rcases ha with rfl | ha
    · exact ⟨t, w, ht.1, by simp; omega⟩
    · obtain ⟨t'', x, h1, h2⟩ := ih w (by simp; omega) t ht.2 a ha
      exact ⟨t'', x, h1, by simp; omega⟩
  · exact ht.elim

/-- Serialization of the finite value `v` succeeds with a document that shows it. -/
def SerOk (env : Env) (H : Heap) (v : Val) : Prop :=
  ∀ t segs pos σ, HasTy env H v t → finite v = true → ∃ new j tr, ser env v t segs σ = .done (new ++ σ) (some j) ∧
    Shows env v t pos j tr ∧ Rend H (env.PlainNames ∧ PathSafe v) segs pos σ new tr (pointerGet j) (addrs v)

theorem serOk_items (env : Env) (H : Heap) (vs : List Val) (hv : ∀ v ∈ vs, SerOk env H v) :
    ∀ ts k segs pos σ, HasTys env H vs ts → finiteAll vs = true → ∃ new js tr,
      serItems env vs ts k segs σ = .done (new ++ σ) (some js) ∧ ShowsItems env vs ts pos k js tr ∧
      Rend H (env.PlainNames ∧ k + vs.length < 2 ^ 32 - 1 ∧ PathSafeAll vs) segs pos σ new tr (itemsGet k js) (addrsAll vs) := by
  induction vs with
  | nil =>
    intro ts k segs pos σ ht _
    cases ts with
    | cons => simp [HasTys] at ht
    | nil => exact ⟨[], [], [], by simp [serItems], .nil, by simpa [addrsAll] using Rend.empty _ _ _ _ _ _⟩
  | cons v vs ih =>
    intro ts k segs pos σ ht hf
    cases ts with
    | nil => simp [HasTys] at ht
    | cons t ts =>
      simp only [HasTys] at ht
      simp only [finiteAll, Bool.and_eq_true] at hf
      obtain ⟨n1, j, tr1, h1, s1, r1⟩ := hv v (by simp) t (.index k :: segs) (k :: pos) σ ht.1 hf.1
      obtain ⟨n2, js, tr2, h2, s2, r2⟩ := ih (fun w hw => hv w (by simp [hw])) ts (k + 1) segs pos (n1 ++ σ) ht.2 hf.2
      refine ⟨n2 ++ n1, j :: js, tr1 ++ tr2, by simp [serItems, h1, h2, SRes.map], .cons s1 s2, ?_⟩
      have r1' := r1.mono (safe' := env.PlainNames ∧ k + (v :: vs).length < 2 ^ 32 - 1 ∧ PathSafeAll (v :: vs)) (res' := pointerGet j)
        (ads' := addrs v) (fun h => ⟨h.1, by have := h.2.2; simp only [PathSafeAll] at this; exact this.1⟩) (fun _ _ _ h => h) (fun _ => Iff.rfl)
      simp only [addrsAll]
      refine (r1'.lift ?_ ?_).append (r2.mono ?_ ?_ (fun _ => Iff.rfl)) r1'.ne
      · intro h
        simp only [List.length_cons] at h
        show k < 2 ^ 32 - 1
        omega
      · intro h ts q hq
        simp only [List.length_cons] at h
        exact itemsGet_here k (by omega) j js ts q hq
      · intro h
        simp only [List.length_cons, PathSafeAll] at h
        exact ⟨h.1, by omega, h.2.2.2⟩
      · intro _ ts q hq
        exact itemsGet_succ k j js ts q hq

theorem serOk_set (env : Env) (H : Heap) (t : Ty) (vs : List Val) (hv : ∀ v ∈ vs, SerOk env H v) :
    ∀ k segs pos σ, (∀ v ∈ vs, HasTy env H v t) → finiteAll vs = true → ∃ new js tr,
      serSet env vs t segs σ = .done (new ++ σ) (some js) ∧ ShowsItems env vs (List.replicate vs.length t) pos k js tr ∧
      Rend H (addrsAll vs = []) segs pos σ new tr (fun _ => none) (addrsAll vs) := by
  induction vs with
  | nil =>
    intro k segs pos σ ht _
    exact ⟨[], [], [], by simp [serSet], .nil, by simpa [addrsAll] using Rend.empty _ _ _ _ _ _⟩
  | cons v vs ih =>
    intro k segs pos σ ht hf
    simp only [finiteAll, Bool.and_eq_true] at hf
    obtain ⟨n1, j, tr1, h1, s1, r1⟩ := hv v (by simp) t segs (k :: pos) σ (ht v (by simp)) hf.1
    obtain ⟨n2, js, tr2, h2, s2, r2⟩ := ih (fun w hw => hv w (by simp [hw])) (k + 1) segs pos (n1 ++ σ)
      (fun w hw => ht w (by simp [hw])) hf.2
    refine ⟨n2 ++ n1, j :: js, tr1 ++ tr2, by simp [serSet, h1, h2, SRes.map], .cons s1 s2, ?_⟩
    obtain ⟨hn, r1'⟩ := r1.noaddr (segs' := segs) (pos' := pos) (res' := fun _ => none)
    simp only [addrsAll]
    refine (r1'.mono ?_ (fun _ _ _ h => h) (fun _ => Iff.rfl)).append (r2.mono ?_ (fun _ _ _ h => h) (fun _ => Iff.rfl)) ?_
    · intro h; simp only [List.append_eq_nil_iff] at h; exact h.1
    · intro h; simp only [List.append_eq_nil_iff] at h; exact h.2
    · intro h
      simp only [List.append_eq_nil_iff] at h
      rw [hn h.1]
      intro a s hm
      simp at hm

theorem serOk_vals (env : Env) (H : Heap) (t : Ty) (kvs : List (Str × Val)) (hv : ∀ p ∈ kvs, SerOk env H p.2) :
    ∀ k segs pos σ, (∀ p ∈ kvs, HasTy env H p.2 t) → (∀ p ∈ kvs, finite p.2 = true) → ∃ new js tr,
      serEntries (kvs.map fun p => (p.1, ser env p.2 t)) segs σ = .done (new ++ σ) (some js) ∧
      ShowsVals env kvs t pos k js tr ∧ js.map (·.1) = kvs.map (·.1) ∧
      Rend H (env.PlainNames ∧ PathSafeVals kvs ∧ (kvs.map (·.1)).Nodup) segs pos σ new tr (membersGet k js) (addrsVals kvs) := by
  induction kvs with
  | nil =>
    intro k segs pos σ ht _
    exact ⟨[], [], [], by simp [serEntries], .nil, rfl, by simpa [addrsVals] using Rend.empty _ _ _ _ _ _⟩
  | cons p kvs ih =>
    obtain ⟨key, v⟩ := p
    intro k segs pos σ ht hf
    obtain ⟨n1, j, tr1, h1, s1, r1⟩ := hv (key, v) (by simp) t (Seg.name key :: segs) (k :: pos) σ (ht _ (by simp)) (hf _ (by simp))
    obtain ⟨n2, js, tr2, h2, s2, hk, r2⟩ := ih (fun w hw => hv w (by simp [hw])) (k + 1) segs pos (n1 ++ σ)
      (fun w hw => ht w (by simp [hw])) (fun w hw => hf w (by simp [hw]))
    refine ⟨n2 ++ n1, (key, j) :: js, tr1 ++ tr2, by simp only [List.map_cons, serEntries, h1, h2, SRes.map]; simp, .cons s1 s2, by simp [hk], ?_⟩
    have r1' := r1.mono (safe' := env.PlainNames ∧ PathSafeVals ((key, v) :: kvs) ∧ (((key, v) :: kvs).map (·.1)).Nodup) (res' := pointerGet j)
      (ads' := addrs v) (fun h => ⟨h.1, by have := h.2.1; simp only [PathSafeVals] at this; exact this.2.1⟩) (fun _ _ _ h => h) (fun _ => Iff.rfl)
    simp only [addrsVals]
    refine (r1'.lift ?_ ?_).append (r2.mono ?_ ?_ (fun _ => Iff.rfl)) r1'.ne
    · intro h
      simp only [PathSafeVals] at h
      exact name_plain key h.2.1.1
    · intro h ts q hq
      simp only [PathSafeVals] at h
      exact membersGet_here k key h.2.1.1 j js ts q hq
    · intro h
      simp only [PathSafeVals, List.map_cons, List.nodup_cons] at h
      exact ⟨h.1, h.2.1.2.2, h.2.2.2⟩
    · intro h ts q hq
      simp only [List.map_cons, List.nodup_cons] at h
      exact membersGet_succ k key j js (by rw [hk]; exact h.2.2.1) ts q hq

theorem serOk_members (env : Env) (H : Heap) (vs : List Val) (hv : ∀ w, sizeOf w < 1 + sizeOf vs → SerOk env H w) :
    ∀ ms k segs pos σ, MembersTy env H vs ms → finiteAll vs = true → ∃ new js tr,
      serMembers env vs ms segs σ = .done (new ++ σ) (some js) ∧ ShowsMembers env vs ms pos k js tr ∧
      (∀ n ∈ js.map (·.1), n ∈ ms.map (·.name)) ∧
      Rend H (env.PlainNames ∧ PathSafeAll vs ∧ (∀ m ∈ ms, PlainName m.name) ∧ (ms.map (·.name)).Nodup) segs pos σ new tr
        (membersGet k js) (addrsAll vs) := by
  induction vs with
  | nil =>
    intro ms k segs pos σ ht _
    cases ms with
    | cons => simp [MembersTy] at ht
    | nil => exact ⟨[], [], [], by simp [serMembers], .nil, by simp, by simpa [addrsAll] using Rend.empty _ _ _ _ _ _⟩
  | cons v vs ih =>
    intro ms k segs pos σ ht hf
    have ih' := ih (fun w hw => hv w (by simp only [List.cons.sizeOf_spec]; omega))
    cases ms with
    | nil => simp [MembersTy] at ht
    | cons m ms =>
      rw [MembersTy_cons] at ht
      rw [serMembers_cons]
      simp only [finiteAll, Bool.and_eq_true] at hf
      cases hk : fieldOf m.kind v with
      | bad => simp [hk] at ht
      | skip =>
        obtain ⟨hopt, rfl⟩ := fieldOf_skip hk
        obtain ⟨n, js, tr, h1, h2, h3, h4⟩ := ih' ms k segs pos σ ht.2 hf.2
        refine ⟨n, js, tr, h1, .skip hopt h2, fun x hx => by simp [h3 x hx], ?_⟩
        refine h4.mono ?_ (fun _ _ _ h => h) (by simp [addrsAll, addrs])
        intro h
        simp only [PathSafeAll, List.map_cons, List.nodup_cons] at h
        exact ⟨h.1, h.2.1.2, fun m hm => h.2.2.1 m (by simp [hm]), h.2.2.2.2⟩
      | here w =>
        simp only [hk] at ht
        have hw : SerOk env H w := hv w (by have := fieldOf_size hk; simp only [List.cons.sizeOf_spec]; omega)
        obtain ⟨n1, j, tr1, h1, s1, r1⟩ := hw m.ty (Seg.name m.name :: segs) (k :: pos) σ ht.1 (by rw [← finite_field hk]; exact hf.1)
        obtain ⟨n2, js, tr2, h2, s2, hn, r2⟩ := ih' ms (k + 1) segs pos (n1 ++ σ) ht.2 hf.2
        refine ⟨n2 ++ n1, (m.name, j) :: js, tr1 ++ tr2, by simp only [h1, h2, SRes.map]; simp, ?_, ?_, ?_⟩
        · rcases fieldOf_here hk with ⟨ho, rfl⟩ | ⟨ho, rfl⟩
          · exact .engaged ho s1 s2
          · exact .plain ho s1 s2
        · intro x hx
          simp only [List.map_cons, List.mem_cons] at hx ⊢
          rcases hx with rfl | hx
          · exact .inl rfl
          · exact .inr (hn x hx)
        · have r1' := r1.mono (safe' := env.PlainNames ∧ PathSafeAll (v :: vs) ∧ (∀ m' ∈ m :: ms, PlainName m'.name) ∧ ((m :: ms).map (·.name)).Nodup)
            (res' := pointerGet j) (ads' := addrs v)
            (fun h => ⟨h.1, by have := h.2.1; simp only [PathSafeAll] at this; rw [← PathSafe_field hk]; exact this.1⟩) (fun _ _ _ h => h)
            (by rw [addrs_field hk]; exact fun _ => Iff.rfl)
          simp only [addrsAll]
          refine (r1'.lift ?_ ?_).append (r2.mono ?_ ?_ (fun _ => Iff.rfl)) r1'.ne
          · intro h
            exact name_plain _ (h.2.2.1 m (by simp))
          · intro h ts q hq
            exact membersGet_here k _ (h.2.2.1 m (by simp)) j js ts q hq
          · intro h
            simp only [PathSafeAll, List.map_cons, List.nodup_cons] at h
            exact ⟨h.1, h.2.1.2, fun m hm => h.2.2.1 m (by simp [hm]), h.2.2.2.2⟩
          · intro h ts q hq
            simp only [List.map_cons, List.nodup_cons] at h
            exact membersGet_succ k _ j js (fun hm => h.2.2.2.1 (hn _ hm)) ts q hq

theorem serPrim_ok (env : Env) (p : PVal) (k : Prim) (ht : PrimTy env p k) (hf : finite (.prim p) = true) :
    ∃ j, serPrim env k p = .ok j := by
  cases p with
  | date y m d =>
    cases k with
    | date =>
      have : ∃ s, DateTime.formatDate env.junk env.clk y m d = some s := by
        unfold DateTime.formatDate DateTime.sysDays
        rw [if_pos ht.2]
        exact ⟨_, rfl⟩
      obtain ⟨s, hs⟩ := this
      exact ⟨.str s, by rw [serPrim_date, hs]⟩
    | _ => exact ht.elim
  | flt f =>
    cases k with
    | flt t =>
      have hf : f.isFinite = true := hf
      exact ⟨.num (.dbl f), by rw [serPrim_flt, if_pos hf]⟩
    | _ => exact ht.elim
  | _ => cases k <;> first | exact ht.elim | exact ⟨_, rfl⟩

theorem serOk (env : Env) (hfair : env.Fair) (H : Heap) : ∀ v, SerOk env H v := by
  apply Val.strong
  intro v ih t segs pos σ ht hf
  have ht' := ht
  unfold HasTy at ht
  split at ht
  · rename_i p k
    obtain ⟨j, hj⟩ := serPrim_ok env p k ht hf
    exact ⟨[], j, [], by simp only [ser, hj, List.nil_append], .prim hj, by simpa [addrs] using Rend.empty _ _ _ _ _ _⟩
  · rename_i vs t
    obtain ⟨n, js, tr, h1, h2, h3⟩ := serOk_items env H vs (fun w hw => ih w (by have := mem_size hw; simp; omega)) _ 0 segs pos σ
      (HasTys_replicate env H vs t ht) hf
    refine ⟨n, .arr js, tr, by simp only [ser]; exact map_some h1, .vec h2, h3.mono ?_ (fun _ => itemsGet_zero js) (fun _ => Iff.rfl)⟩
    intro h
    simp only [PathSafe] at h
    exact ⟨h.1, by omega, h.2.2⟩
  · rename_i vs n t
    obtain ⟨rfl, ht⟩ := ht
    obtain ⟨n, js, tr, h1, h2, h3⟩ := serOk_items env H vs (fun w hw => ih w (by have := mem_size hw; simp; omega)) _ 0 segs pos σ
      (HasTys_replicate env H vs t ht) hf
    refine ⟨n, .arr js, tr, by simp only [ser, if_true]; exact map_some h1, .arr h2, h3.mono ?_ (fun _ => itemsGet_zero js) (fun _ => Iff.rfl)⟩
    intro h
    simp only [PathSafe] at h
    exact ⟨h.1, by omega, h.2.2⟩
  · rename_i vs ts
    obtain ⟨n, js, tr, h1, h2, h3⟩ := serOk_items env H vs (fun w hw => ih w (by have := mem_size hw; simp; omega)) _ 0 segs pos σ ht hf
    refine ⟨n, .arr js, tr, by simp only [ser]; exact map_some h1, .tuple h2, h3.mono ?_ (fun _ => itemsGet_zero js) (fun _ => Iff.rfl)⟩
    intro h
    simp only [PathSafe] at h
    exact ⟨h.1, by omega, h.2.2⟩
  · rename_i vs t
    obtain ⟨n, js, tr, h1, h2, h3⟩ := serOk_set env H t vs (fun w hw => ih w (by have := mem_size hw; simp; omega)) 0 segs pos σ
      ((AllTy_iff _ _ _ _).1 ht.1) hf
    refine ⟨n, .arr js, tr, by simp only [ser]; exact map_some h1, .set h2, h3.mono ?_ (by simp) (fun _ => Iff.rfl)⟩
    intro h
    simp only [PathSafe] at h
    exact h.2
  · rename_i kvs o t
    have hp := iterate_perm env hfair o segs kvs ht.2.nodup
    have hk := (ValsTy_iff _ _ _ _).1 ht.1
    have hfin := (finiteVals_iff kvs).1 hf
    obtain ⟨n, js, tr, h1, h2, -, h3⟩ := serOk_vals env H t (iterate env o segs kvs)
      (fun w hw => ih w.2 (by have := mem_size_kv (hp.mem_iff.1 hw); simp; omega)) 0 segs pos σ
      (fun w hw => hk w (hp.mem_iff.1 hw)) (fun w hw => hfin w (hp.mem_iff.1 hw))
    refine ⟨n, .obj js, tr, ?_, .map hp ?_ h2, h3.mono ?_ (fun _ => membersGet_zero js) ?_⟩
    · simp only [ser, serVals_eq, iterate_map (g := fun p => ser env p.2 t)]
      exact map_some h1
    · intro ho
      simp [iterate, ho]
    · intro h
      simp only [PathSafe] at h
      refine ⟨h.1, ?_, ?_⟩
      · rw [PathSafeVals_iff] at h ⊢
        exact fun p hm => h.2 p (hp.mem_iff.1 hm)
      · exact (hp.map _).nodup_iff.2 ht.2.nodup
    · intro a
      simp only [addrs, mem_addrsVals]
      constructor
      · rintro ⟨p, h4, h5⟩; exact ⟨p, hp.mem_iff.1 h4, h5⟩
      · rintro ⟨p, h4, h5⟩; exact ⟨p, hp.mem_iff.2 h4, h5⟩
  · rename_i kvs t
    have hk := (ValsTy_iff _ _ _ _).1 ht
    have hfin := (finiteVals_iff kvs).1 hf
    obtain ⟨n, js, tr, h1, h2, -, h3⟩ := serOk_vals env H t kvs (fun w hw => ih w.2 (by have := mem_size_kv hw; simp; omega)) 0 segs pos σ hk hfin
    refine ⟨n, .obj js, tr, ?_, .dict h2, h3.mono ?_ (fun _ => membersGet_zero js) (fun _ => Iff.rfl)⟩
    · simp only [ser, serVals_eq]
      exact map_some h1
    · intro h
      simp only [PathSafe] at h
      exact ⟨h.1, h.2.1, h.2.2⟩
  · rename_i i w ts
    obtain ⟨t, hi, ht⟩ := ht
    obtain ⟨n, j, tr, h1, h2, h3⟩ := ih w (by simp; omega) t segs pos σ ht hf
    exact ⟨n, j, tr, by simp only [ser, hi, h1], .alt hi h2, h3.mono (fun h => by simpa only [PathSafe] using h) (fun _ _ _ h => h) (fun _ => Iff.rfl)⟩
  · rename_i vs c
    obtain ⟨n, js, tr, h1, h2, -, h3⟩ := serOk_members env H vs (fun w hw => ih w (by simp; omega)) _ 0 segs pos σ ht hf
    refine ⟨n, .obj js, tr, by simp only [ser]; exact map_some h1, .cls h2, h3.mono ?_ (fun _ => membersGet_zero js) (fun _ => Iff.rfl)⟩
    intro h
    simp only [PathSafe] at h
    exact ⟨h.1, h.2, (h.1 c).1, (h.1 c).2⟩
  · rename_i w t
    obtain ⟨n, j, tr, h1, h2, h3⟩ := ih w (by simp) t segs pos σ ht hf
    exact ⟨n, j, tr, by simp only [ser, h1], .uptr h2, h3.mono (fun h => by simpa only [PathSafe] using h) (fun _ _ _ h => h) (fun _ => Iff.rfl)⟩
  · rename_i a w t
    simp only [ser]
    cases hg : σ.get a with
    | some s =>
      have hm : (a, s) ∈ σ := by
        obtain ⟨l1, l2, rfl, -⟩ := List.lookup_eq_some_iff.1 hg
        simp
      have hma : a ∈ σ.keys := List.mem_map.2 ⟨_, hm, rfl⟩
      refine ⟨[], _, [.ref a (pathStr s)], rfl, .ref, ⟨⟨hma, trivial⟩, rfl, ?_, by simp [fulls], by simp [addrs], ?_, by simp⟩⟩
      · intro b p hb
        simp only [List.mem_singleton, Occ.ref.injEq] at hb
        obtain ⟨rfl, rfl⟩ := hb
        exact ⟨s, hm, rfl, fun _ hn => hn _ _ hm⟩
      · intro hc
        refine ⟨hc, fun b hb => ?_⟩
        simp only [addrs, List.mem_cons] at hb
        rcases hb with rfl | hb
        · exact hma
        · exact hc a hma _ _ ht.1 b hb
    | none =>
      obtain ⟨n, j, tr, h1, h2, h3⟩ := ih w (by simp; omega) t segs pos σ ht.2 hf
      have hfresh : a ∉ addrs w := by
        intro hm
        obtain ⟨t', x, hx, hsz⟩ := addrs_size env H w t ht.2 a hm
        rw [ht.1] at hx
        cases hx
        omega
      have hn1 : a ∉ STab.keys n := by
        rw [h3.keys]
        intro hm
        exact hfresh (h3.sub a (by simpa using hm))
      have hn2 : a ∉ STab.keys σ := by
        intro hm
        obtain ⟨⟨b, s⟩, hm', rfl⟩ := List.mem_map.1 hm
        have := List.lookup_eq_none_iff.1 hg _ hm'
        simp at this
      have hnot : a ∉ STab.keys (n ++ σ) := by
        simp only [STab.keys, List.map_append, List.mem_append] at hn1 hn2 ⊢
        grind
      have hl : (n ++ σ).lookup a = none := by
        rw [List.lookup_eq_none_iff]
        intro p hp
        simp only [bne_iff_ne, ne_eq]
        rintro rfl
        exact hnot (List.mem_map.2 ⟨p, hp, rfl⟩)
      refine ⟨(a, segs) :: n, j, tr ++ [.full a pos], ?_, .full h2, ⟨?_, ?_, ?_, ?_, ?_, ?_, ?_⟩⟩
      · simp [h1, STab.put, hl]
      · rw [Good_append]
        refine ⟨h3.good, ?_, trivial⟩
        rw [← h3.keys]
        simpa only [STab.keys, List.map_append] using hnot
      · have := h3.keys
        simp only [STab.keys] at this ⊢
        simp [fulls_append, fulls, this]
      · intro b p hb
        simp only [List.mem_append, List.mem_singleton, reduceCtorEq, or_false] at hb
        obtain ⟨s, h4, h5, h6⟩ := h3.refs b p hb
        refine ⟨s, List.mem_cons_of_mem _ h4, h5, fun hs => h6 ?_⟩
        simpa only [PathSafe] using hs
      · intro b hb
        simp only [fulls_append, fulls, List.mem_append, List.mem_singleton] at hb
        simp only [addrs, List.mem_cons]
        rcases hb with hb | hb
        · exact .inr (h3.sub b hb)
        · exact .inl hb
      · intro b p hb
        simp only [List.mem_append, List.mem_singleton, reduceCtorEq, or_false] at hb
        simp only [addrs, List.mem_cons]
        exact .inr (h3.refsub b p hb)
      · intro hc
        obtain ⟨h4, h5⟩ := h3.all hc
        constructor
        · intro b hb t' x hx c hcx
          simp only [List.cons_append, STab.keys, List.map_cons, List.mem_cons] at hb ⊢
          rcases hb with rfl | hb
          · rw [ht.1] at hx
            cases hx
            exact .inr (h5 c hcx)
          · exact .inr (h4 b hb t' x hx c hcx)
        · intro b hb
          simp only [addrs, List.mem_cons] at hb
          simp only [List.cons_append, STab.keys, List.map_cons, List.mem_cons]
          rcases hb with rfl | hb
          · exact .inl rfl
          · exact .inr (h5 b hb)
      · intro hs b s' hb
        rcases List.mem_cons.1 hb with hb | hb
        · cases hb
          exact ⟨[], [], rfl, by simp, by simp, by simp [pointerGet]⟩
        · obtain ⟨s, q, h4, h5, h6, h7⟩ := h3.locs (by simpa only [PathSafe] using hs) b s' hb
          exact ⟨s, q, h4, by simp [h5], h6, h7⟩
  · exact ht.elim

end Verif.Core
