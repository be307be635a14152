import Verif.Effort

/-!
# The work of writing a text

`weffort` follows `wr` as `effort` follows `ser`: one for each call of `serialize` (write.hpp:23-28), `c` for each path segment collected (write_pointer.hpp:56) or copied and
spelled (write_pointer.hpp:40-42).
-/

namespace Verif.Core

/-- The work of the loop over the entries of a map (`writeEntries`; write_map.hpp:19-26). -/
def weffortEntries : List (Str × EffortFn × WriteFn) → List Seg → STab → Nat
  | [], _, _ => 0
  | (k, f, g) :: rest, segs, σ =>
      f (Seg.name k :: segs) σ +
      (match g (Seg.name k :: segs) σ with
      | .done σ' true _ => weffortEntries rest segs σ'
      | _ => 0)

mutual
/-- The work of `serialize(obj, writer, context)` (`wr`; write.hpp:23-28 and the same places as there); shared pointers write_pointer.hpp:38-59. -/
def weffort (env : Env) (c : Nat) : Val → Ty → List Seg → STab → Nat
  | .seq vs, .vec t, segs, σ => 1 + weffortItems env c vs (List.replicate vs.length t) 0 segs σ
  | .tup vs, .arr n t, segs, σ => 1 + weffortItems env c vs (List.replicate n t) 0 segs σ
  | .tup vs, .tuple ts, segs, σ => 1 + weffortItems env c vs ts 0 segs σ
  | .set vs, .set t, segs, σ => 1 + weffortSet env c vs t segs σ
  | .map kvs, .map ordered t, segs, σ => 1 + weffortEntries (iterate env ordered segs (weffortVals env c kvs t)) segs σ
  | .dict kvs, .dict t, segs, σ => 1 + weffortEntries (weffortVals env c kvs t) segs σ
  | .alt i v, .variant ts, segs, σ => 1 +
      match ts[i]? with
      | some t => weffort env c v t segs σ
      | none => 0
  | .obj vs, .cls k, segs, σ => 1 + weffortMembers env c vs (env.members k) segs σ
  | .uptr v, .uptr t, segs, σ => 1 + weffort env c v t segs σ
  | .sptr a v, .sptr t, segs, σ => 1 +
      match σ.get a with
      | some s => c * (2 * s.length)
      | none => weffort env c v t segs σ +
          match wr env v t segs σ with
          | .done _ true _ => c * segs.length
          | _ => 0
  | _, _, _, _ => 1

/-- The work of the loops over elements (`wrItems`; write_vector.hpp:18-24, write_array.hpp:18-24, write_tuple.hpp:26-43). -/
def weffortItems (env : Env) (c : Nat) : List Val → List Ty → Nat → List Seg → STab → Nat
  | v :: vs, t :: ts, k, segs, σ =>
      weffort env c v t (.index k :: segs) σ +
      (match wr env v t (.index k :: segs) σ with
      | .done σ' true _ => weffortItems env c vs ts (k + 1) segs σ'
      | _ => 0)
  | _, _, _, _, _ => 0

/-- The work of the loop of write_set.hpp:18-24 (`wrSet`). -/
def weffortSet (env : Env) (c : Nat) : List Val → Ty → List Seg → STab → Nat
  | [], _, _, _ => 0
  | v :: vs, t, segs, σ =>
      weffort env c v t segs σ +
      (match wr env v t segs σ with
      | .done σ' true _ => weffortSet env c vs t segs σ'
      | _ => 0)

/-- The work for the values of a map (`wrVals`). -/
def weffortVals (env : Env) (c : Nat) : List (Str × Val) → Ty → List (Str × EffortFn × WriteFn)
  | [], _ => []
  | (k, v) :: kvs, t => (k, weffort env c v t, wr env v t) :: weffortVals env c kvs t

/-- The work of `persist` with a `JsonObjectWriter` (`wrMembers`; write_object.hpp:21-69): the members after one that fails are skipped. -/
def weffortMembers (env : Env) (c : Nat) : List Val → List Member → List Seg → STab → Nat
  | v :: vs, m :: ms, segs, σ =>
      match m.kind, v with
      | .optional, .absent => weffortMembers env c vs ms segs σ
      | .optional, .present w =>
          weffort env c w m.ty (Seg.name m.name :: segs) σ +
          (match wr env w m.ty (Seg.name m.name :: segs) σ with
          | .done σ' true _ => weffortMembers env c vs ms segs σ'
          | _ => 0)
      | .optional, _ => 0
      | _, v =>
          weffort env c v m.ty (Seg.name m.name :: segs) σ +
          (match wr env v m.ty (Seg.name m.name :: segs) σ with
          | .done σ' true _ => weffortMembers env c vs ms segs σ'
          | _ => 0)
  | _, _, _, _ => 0
end

/-- The work of `write_to_string` (write.hpp:41-53). -/
def effortText (env : Env) (c : Nat) (t : Ty) (v : Val) : Nat := weffort env c v t [] []

theorem weffortVals_eq (env : Env) (c : Nat) (kvs : List (Str × Val)) (t : Ty) :
    weffortVals env c kvs t = kvs.map fun p => (p.1, weffort env c p.2 t, wr env p.2 t) := by
  induction kvs with
  | nil => simp [weffortVals]
  | cons p kvs ih => cases p; simp [weffortVals, ih]

theorem weffortMembers_cons (env : Env) (c : Nat) (v : Val) (vs : List Val) (m : Member) (ms : List Member) (segs : List Seg) (σ : STab) :
    weffortMembers env c (v :: vs) (m :: ms) segs σ =
      match fieldOf m.kind v with
      | .skip => weffortMembers env c vs ms segs σ
      | .bad => 0
      | .here w => weffort env c w m.ty (Seg.name m.name :: segs) σ +
          match wr env w m.ty (Seg.name m.name :: segs) σ with
          | .done σ' true _ => weffortMembers env c vs ms segs σ'
          | _ => 0 := by
  obtain ⟨name, kind, ty⟩ := m
  cases kind <;> cases v <;> simp [weffortMembers, fieldOf]

/-- A step with the outcome `r`: the objects at the addresses `met` are visited, none of them for the second time; on success they are those entered in the table. -/
def WSpent (H : Heap) (c L : Nat) (σ : STab) (ads : List Nat) (parts e : Nat) (r : WRes) : Prop :=
  ∃ met : List Nat, met.Nodup ∧ (∀ a ∈ met, a ∈ ads) ∧ (∀ a ∈ met, a ∉ STab.keys σ) ∧ e ≤ (1 + c * (2 * L)) * (parts + partsSum H met) ∧
    ∀ σ' es, r = .done σ' true es → ∃ new : STab, σ' = new ++ σ ∧ STab.keys new = met ∧ STab.Short L new ∧ parts + partsSum H met ≤ e

theorem WSpent.nil (H : Heap) (c L : Nat) (σ : STab) (ads : List Nat) (es : List Event) : WSpent H c L σ ads 0 0 (.done σ true es) := by
  refine ⟨[], List.Pairwise.nil, (fun _ h => nomatch h), (fun _ h => nomatch h), Nat.zero_le _, ?_⟩
  rintro σ' es' h
  cases h
  exact ⟨[], rfl, rfl, (fun _ h => nomatch h), Nat.le_refl _⟩

theorem WSpent.wrap {H : Heap} {c L : Nat} {σ : STab} {a1 a2 : List Nat} {p e : Nat} {r r' : WRes} (h : WSpent H c L σ a1 p e r) (hs : ∀ a ∈ a1, a ∈ a2)
    (hr : ∀ σ' es, r' = .done σ' true es → ∃ es', r = .done σ' true es') : WSpent H c L σ a2 (1 + p) (1 + e) r' := by
  obtain ⟨met, h1, h2, h3, h4, h5⟩ := h
  refine ⟨met, h1, fun a ha => hs a (h2 a ha), h3, ?_, fun σ' es he => ?_⟩
  · rw [Nat.add_assoc, Nat.mul_add]
    exact Nat.add_le_add (by omega) h4
  · obtain ⟨es', h6⟩ := hr σ' es he
    obtain ⟨new, h7, h8, h9, h10⟩ := h5 σ' es' h6
    exact ⟨new, h7, h8, h9, by omega⟩

/-- The work after a step that may have failed. -/
def WRes.later (f : STab → Nat) : WRes → Nat
  | .done σ' true _ => f σ'
  | _ => 0

theorem WSpent.seq {H : Heap} {c L : Nat} {σ : STab} {a1 a2 : List Nat} {p1 p2 e1 : Nat} {r1 r : WRes} {f : STab → Nat} {g : STab → WRes} (hσ : STab.Short L σ)
    (h1 : WSpent H c L σ a1 p1 e1 r1) (h2 : ∀ σ', STab.Short L σ' → WSpent H c L σ' a2 p2 (f σ') (g σ'))
    (hr : ∀ τ es, r = .done τ true es → ∃ σ' es1 es2, r1 = .done σ' true es1 ∧ g σ' = .done τ true es2) :
    WSpent H c L σ (a1 ++ a2) (p1 + p2) (e1 + r1.later f) r := by
  obtain ⟨met1, n1, s1, d1, u1, l1⟩ := h1
  have fails : (∀ σ' es, r1 ≠ .done σ' true es) → WSpent H c L σ (a1 ++ a2) (p1 + p2) (e1 + 0) r := by
    intro hno
    refine ⟨met1, n1, fun a ha => List.mem_append_left _ (s1 a ha), d1, Nat.le_trans u1 (Nat.mul_le_mul_left _ (by omega)), fun τ es he => ?_⟩
    obtain ⟨σ', es1, -, h, -⟩ := hr τ es he
    exact absurd h (hno σ' es1)
  match r1, fails, l1, hr with
  | .ub, fails, _, _ => exact fails (by simp)
  | .done _ false _, fails, _, _ => exact fails (by simp)
  | .done σ' true es1, _, l1, hr =>
    obtain ⟨new1, rfl, k1, sh1, lo1⟩ := l1 _ _ rfl
    obtain ⟨met2, n2, s2, d2, u2, l2⟩ := h2 (new1 ++ σ) (Short_append sh1 hσ)
    refine ⟨met2 ++ met1, ?_, ?_, ?_, ?_, ?_⟩
    · refine List.nodup_append.2 ⟨n2, n1, ?_⟩
      rintro a ha b hb rfl
      exact d2 a ha (by rw [keys_append, k1]; exact List.mem_append_left _ hb)
    · intro a ha
      rcases List.mem_append.1 ha with h | h
      · exact List.mem_append_right _ (s2 a h)
      · exact List.mem_append_left _ (s1 a h)
    · intro a ha
      rcases List.mem_append.1 ha with h | h
      · exact fun hm => d2 a h (by rw [keys_append]; exact List.mem_append_right _ hm)
      · exact d1 a h
    · rw [partsSum_append, show p1 + p2 + (partsSum H met2 + partsSum H met1) = (p1 + partsSum H met1) + (p2 + partsSum H met2) by omega, Nat.mul_add]
      exact Nat.add_le_add u1 u2
    · intro τ es he
      obtain ⟨σ2, e3, e4, h3, h4⟩ := hr τ es he
      cases h3
      obtain ⟨new2, rfl, k2, sh2, lo2⟩ := l2 _ _ h4
      refine ⟨new2 ++ new1, by rw [List.append_assoc], by rw [keys_append, k1, k2], Short_append sh2 sh1, ?_⟩
      rw [partsSum_append]
      simp only [WRes.later]
      omega

theorem before_true {pre : List Event} {r : WRes} {σ : STab} {es : List Event} (h : r.before pre = .done σ true es) : ∃ es', r = .done σ true es' := by
  cases r with
  | ub => cases h
  | done σ' ok es' => cases h; exact ⟨_, rfl⟩

theorem closed_true {e : Event} {r : WRes} {σ : STab} {es : List Event} (h : r.close e = .done σ true es) : ∃ es', r = .done σ true es' := by
  cases r with
  | ub => cases h
  | done σ' ok es' => cases ok <;> cases h; exact ⟨_, rfl⟩

theorem whole_true {a b : Event} {r : WRes} {σ : STab} {es : List Event} (h : (r.before [a]).close b = .done σ true es) : ∃ es', r = .done σ true es' := by
  obtain ⟨_, h⟩ := closed_true h
  exact before_true h

/-- The work of writing a value lies within the bounds, whether it can be written or not. -/
def WSpends (env : Env) (H : Heap) (c L : Nat) (v : Val) : Prop :=
  ∀ t segs σ, HasTy env H v t → segs.length + levels v ≤ L → STab.Short L σ →
    WSpent H c L σ (addrs v) (partsOf v) (weffort env c v t segs σ) (wr env v t segs σ)

theorem wspends_items (env : Env) (H : Heap) (c L : Nat) (vs : List Val) (hv : ∀ v ∈ vs, WSpends env H c L v) :
    ∀ ts k segs σ, HasTys env H vs ts → segs.length + 1 + levelsAll vs ≤ L → STab.Short L σ →
      WSpent H c L σ (addrsAll vs) (partsAll vs) (weffortItems env c vs ts k segs σ) (wrItems env vs ts k segs σ) := by
  induction vs with
  | nil =>
    intro ts k segs σ ht _ _
    cases ts with
    | cons => simp [HasTys] at ht
    | nil => simpa [wrItems, weffortItems, partsAll, addrsAll] using WSpent.nil H c L σ [] []
  | cons v vs ih =>
    intro ts k segs σ ht hl hσ
    cases ts with
    | nil => simp [HasTys] at ht
    | cons t ts =>
      simp only [HasTys] at ht
      have hl1 : levels v ≤ levelsAll (v :: vs) := Nat.le_max_left _ _
      have hl2 : levelsAll vs ≤ levelsAll (v :: vs) := Nat.le_max_right _ _
      rw [weffortItems, wrItems, addrsAll, partsAll]
      refine WSpent.seq hσ (hv v (by simp) t (.index k :: segs) σ ht.1 (by simp only [List.length_cons]; omega) hσ)
        (fun σ' hσ' => ih (fun w hw => hv w (by simp [hw])) ts (k + 1) segs σ' ht.2 (by omega) hσ') ?_
      intro τ es h
      split at h
      · cases h
      · cases h
      · obtain ⟨es', h'⟩ := before_true h
        exact ⟨_, _, _, by assumption, h'⟩

theorem wspends_set (env : Env) (H : Heap) (c L : Nat) (t : Ty) (vs : List Val) (hv : ∀ v ∈ vs, WSpends env H c L v) :
    ∀ segs σ, (∀ v ∈ vs, HasTy env H v t) → segs.length + levelsAll vs ≤ L → STab.Short L σ →
      WSpent H c L σ (addrsAll vs) (partsAll vs) (weffortSet env c vs t segs σ) (wrSet env vs t segs σ) := by
  induction vs with
  | nil => intro segs σ ht _ _; simpa [wrSet, weffortSet, partsAll, addrsAll] using WSpent.nil H c L σ [] []
  | cons v vs ih =>
    intro segs σ ht hl hσ
    have hl1 : levels v ≤ levelsAll (v :: vs) := Nat.le_max_left _ _
    have hl2 : levelsAll vs ≤ levelsAll (v :: vs) := Nat.le_max_right _ _
    rw [weffortSet, wrSet, addrsAll, partsAll]
    refine WSpent.seq hσ (hv v (by simp) t segs σ (ht v (by simp)) (by omega) hσ)
      (fun σ' hσ' => ih (fun w hw => hv w (by simp [hw])) segs σ' (fun w hw => ht w (by simp [hw])) (by omega) hσ') ?_
    intro τ es h
    split at h
    · cases h
    · cases h
    · obtain ⟨es', h'⟩ := before_true h
      exact ⟨_, _, _, by assumption, h'⟩

theorem wspends_vals (env : Env) (H : Heap) (c L : Nat) (t : Ty) (kvs : List (Str × Val)) (hv : ∀ p ∈ kvs, WSpends env H c L p.2) :
    ∀ segs σ, (∀ p ∈ kvs, HasTy env H p.2 t) → (∀ p ∈ kvs, segs.length + 1 + levels p.2 ≤ L) → STab.Short L σ →
      WSpent H c L σ (addrsVals kvs) (partsVals kvs) (weffortEntries (kvs.map fun p => (p.1, weffort env c p.2 t, wr env p.2 t)) segs σ)
        (writeEntries (kvs.map fun p => (p.1, wr env p.2 t)) segs σ) := by
  induction kvs with
  | nil => intro segs σ ht _ _; simpa [writeEntries, weffortEntries, partsVals, addrsVals] using WSpent.nil H c L σ [] []
  | cons p kvs ih =>
    obtain ⟨key, v⟩ := p
    intro segs σ ht hl hσ
    simp only [List.map_cons]
    rw [weffortEntries, writeEntries, addrsVals, partsVals]
    refine WSpent.seq hσ (hv (key, v) (by simp) t (Seg.name key :: segs) σ (ht (key, v) (by simp))
        (by have := hl (key, v) (by simp); simp only [List.length_cons] at this ⊢; omega) hσ)
      (fun σ' hσ' => ih (fun w hw => hv w (by simp [hw])) segs σ' (fun w hw => ht w (by simp [hw])) (fun w hw => hl w (by simp [hw])) hσ') ?_
    intro τ es h
    split at h
    · cases h
    · cases h
    · obtain ⟨es', h'⟩ := before_true h
      exact ⟨_, _, _, by assumption, h'⟩

theorem wspends_members (env : Env) (H : Heap) (c L : Nat) (vs : List Val) (hv : ∀ w, sizeOf w < 1 + sizeOf vs → WSpends env H c L w) :
    ∀ ms segs σ, MembersTy env H vs ms → segs.length + 1 + levelsAll vs ≤ L → STab.Short L σ →
      WSpent H c L σ (addrsAll vs) (partsAll vs) (weffortMembers env c vs ms segs σ) (wrMembers env vs ms segs σ) := by
  induction vs with
  | nil =>
    intro ms segs σ ht _ _
    cases ms with
    | cons => simp [MembersTy] at ht
    | nil => simpa [wrMembers, weffortMembers, partsAll, addrsAll] using WSpent.nil H c L σ [] []
  | cons v vs ih =>
    intro ms segs σ ht hl hσ
    have ih' := ih (fun w hw => hv w (by simp only [List.cons.sizeOf_spec]; omega))
    cases ms with
    | nil => simp [MembersTy] at ht
    | cons m ms =>
      rw [MembersTy_cons] at ht
      rw [wrMembers_cons, weffortMembers_cons]
      have hl1 : levels v ≤ levelsAll (v :: vs) := Nat.le_max_left _ _
      have hl2 : levelsAll vs ≤ levelsAll (v :: vs) := Nat.le_max_right _ _
      cases hk : fieldOf m.kind v with
      | bad => simp [hk] at ht
      | skip =>
        obtain ⟨-, rfl⟩ := fieldOf_skip hk
        simpa [addrsAll, addrs, partsAll, partsOf] using ih' ms segs σ ht.2 (by omega) hσ
      | here w =>
        simp only [hk] at ht
        have hlv : levels w = levels v := by
          rcases fieldOf_here hk with ⟨-, rfl⟩ | ⟨-, rfl⟩ <;> rfl
        have hpv : partsOf w = partsOf v := by
          rcases fieldOf_here hk with ⟨-, rfl⟩ | ⟨-, rfl⟩ <;> rfl
        rw [addrsAll, partsAll, ← hpv, addrs_field hk]
        refine WSpent.seq hσ (hv w (by have := fieldOf_size hk; simp only [List.cons.sizeOf_spec]; omega) m.ty (Seg.name m.name :: segs) σ ht.1
            (by simp only [List.length_cons]; omega) hσ)
          (fun σ' hσ' => ih' ms segs σ' ht.2 (by omega) hσ') ?_
        intro τ es h
        simp only at h
        split at h
        · cases h
        · cases h
        · obtain ⟨es', h'⟩ := before_true h
          exact ⟨_, _, _, by assumption, h'⟩

theorem wspends (env : Env) (hfair : env.Fair) (H : Heap) (c L : Nat) : ∀ v, WSpends env H c L v := by
  apply Val.strong
  intro v ih t segs σ ht hl hσ
  revert ht
  rw [HasTy.eq_def]
  split <;> intro ht
  · rename_i p k
    rw [show weffort env c (.prim p) (.prim k) segs σ = 1 + 0 by simp [weffort], show partsOf (.prim p) = 1 + 0 from rfl]
    refine (WSpent.nil H c L σ [] []).wrap (fun _ h => nomatch h) fun σ' es h => ?_
    rw [wr] at h
    split at h <;> cases h
    exact ⟨_, rfl⟩
  · rename_i vs t
    rw [weffort, partsOf, wr]
    exact (wspends_items env H c L vs (fun w hw => ih w (by have := mem_size hw; simp; omega)) _ 0 segs σ
      (HasTys_replicate _ _ _ _ ht) (by simp only [levels] at hl; omega) hσ).wrap (fun _ h => h) fun _ _ => whole_true
  · rename_i vs n t
    obtain ⟨rfl, ht⟩ := ht
    rw [weffort, partsOf, wr, if_pos rfl]
    exact (wspends_items env H c L vs (fun w hw => ih w (by have := mem_size hw; simp; omega)) _ 0 segs σ
      (HasTys_replicate _ _ _ _ ht) (by simp only [levels] at hl; omega) hσ).wrap (fun _ h => h) fun _ _ => whole_true
  · rename_i vs ts
    rw [weffort, partsOf, wr]
    exact (wspends_items env H c L vs (fun w hw => ih w (by have := mem_size hw; simp; omega)) _ 0 segs σ
      ht (by simp only [levels] at hl; omega) hσ).wrap (fun _ h => h) fun _ _ => whole_true
  · rename_i vs t
    rw [weffort, partsOf, wr]
    exact (wspends_set env H c L t vs (fun w hw => ih w (by have := mem_size hw; simp; omega)) segs σ
      ((AllTy_iff _ _ _ _).1 ht.1) (by simp only [levels] at hl; omega) hσ).wrap (fun _ h => h) fun _ _ => whole_true
  · rename_i kvs o t
    have hp := iterate_perm env hfair o segs kvs ht.2.nodup
    have hk := (ValsTy_iff _ _ _ _).1 ht.1
    rw [weffort, partsOf, wr, weffortVals_eq, wrVals_eq, iterate_map (g := fun p => (weffort env c p.2 t, wr env p.2 t)), iterate_map (g := fun p => wr env p.2 t),
      ← partsVals_perm hp]
    refine (wspends_vals env H c L t (iterate env o segs kvs) (fun w hw => ih w.2 (by have := mem_size_kv (hp.mem_iff.1 hw); simp; omega)) segs σ
      (fun w hw => hk w (hp.mem_iff.1 hw)) (fun w hw => by have := levelsVals_mem (hp.mem_iff.1 hw); simp only [levels] at hl; omega) hσ).wrap
      (fun a ha => ?_) fun _ _ => whole_true
    simp only [addrs, mem_addrsVals] at ha ⊢
    obtain ⟨p, h4, h5⟩ := ha
    exact ⟨p, hp.mem_iff.1 h4, h5⟩
  · rename_i kvs t
    rw [weffort, partsOf, wr, weffortVals_eq, wrVals_eq]
    exact (wspends_vals env H c L t kvs (fun w hw => ih w.2 (by have := mem_size_kv hw; simp; omega)) segs σ ((ValsTy_iff _ _ _ _).1 ht)
      (fun w hw => by have := levelsVals_mem hw; simp only [levels] at hl; omega) hσ).wrap (fun _ h => h) fun _ _ => whole_true
  · rename_i i w ts
    obtain ⟨t, hi, ht⟩ := ht
    rw [weffort, partsOf, wr]
    simp only [hi]
    exact (ih w (by simp; omega) t segs σ ht (by simp only [levels] at hl; omega) hσ).wrap (fun _ h => h) fun _ es h => ⟨es, h⟩
  · rename_i vs k
    rw [weffort, partsOf, wr]
    exact (wspends_members env H c L vs (fun w hw => ih w (by simp; omega)) _ segs σ ht (by simp only [levels] at hl; omega) hσ).wrap
      (fun _ h => h) fun _ _ => whole_true
  · rename_i w t
    rw [weffort, partsOf, wr]
    exact (ih w (by simp) t segs σ ht (by simp only [levels] at hl; omega) hσ).wrap (fun _ h => h) fun _ es h => ⟨es, h⟩
  · rename_i a w t
    rw [wr, weffort, show partsOf (.sptr a w) = 1 from rfl]
    cases hg : σ.get a with
    | some s =>
      have hm : (a, s) ∈ σ := by
        obtain ⟨l1, l2, rfl, -⟩ := List.lookup_eq_some_iff.1 hg
        simp
      refine ⟨[], List.Pairwise.nil, (fun _ h => nomatch h), (fun _ h => nomatch h), ?_, ?_⟩
      · exact (Costs.path c L _ (Nat.mul_le_mul_left 2 (hσ _ hm))).2
      · rintro σ' es h
        cases h
        exact ⟨[], rfl, rfl, (fun _ h => nomatch h), by simp [partsSum]⟩
    | none =>
      have h1 := ih w (by simp; omega) t segs σ ht.2 (by simp only [levels] at hl; omega) hσ
      have hfresh : a ∉ addrs w := by
        intro hm
        obtain ⟨t', x, hx, hsz⟩ := addrs_size env H w t ht.2 a hm
        rw [ht.1] at hx
        cases hx
        omega
      have hn2 : a ∉ STab.keys σ := by
        intro hm
        obtain ⟨⟨b, s⟩, hm', rfl⟩ := List.mem_map.1 hm
        have := List.lookup_eq_none_iff.1 hg _ hm'
        simp at this
      obtain ⟨met, n1, s1, d1, u1, l1⟩ := h1
      have hn1 : a ∉ met := fun hm => hfresh (s1 a hm)
      have h2 : partsSum H (a :: met) = partsOf w + partsSum H met := by
        rw [← show partsAt H a = partsOf w by rw [partsAt, ht.1]]
        rfl
      have hlen : segs.length ≤ L := by omega
      refine ⟨a :: met, List.nodup_cons.2 ⟨hn1, n1⟩, ?_, ?_, ?_, ?_⟩
      · intro b hb
        rw [addrs]
        rcases List.mem_cons.1 hb with rfl | hb
        · exact List.mem_cons_self
        · exact List.mem_cons_of_mem _ (s1 b hb)
      · intro b hb
        rcases List.mem_cons.1 hb with rfl | hb
        · exact hn2
        · exact d1 b hb
      · rw [h2, Nat.mul_add]
        have h3 := (Costs.path c L segs.length (by omega)).2
        have h4 : (match wr env w t segs σ with
            | .done _ true _ => c * segs.length
            | _ => 0) ≤ c * segs.length := by
          split
          · exact Nat.le_refl _
          · exact Nat.zero_le _
        simp only
        omega
      · intro τ es h
        simp only at h
        match hw : wr env w t segs σ, h with
        | .done σ' true es', h =>
          obtain ⟨new, rfl, k1, sh1, lo1⟩ := l1 _ _ hw
          have hl' : (new ++ σ).lookup a = none := by
            rw [List.lookup_eq_none_iff]
            intro p hp
            simp only [bne_iff_ne, ne_eq]
            rintro rfl
            rcases List.mem_append.1 hp with h | h
            · exact hn1 (k1 ▸ List.mem_map.2 ⟨p, h, rfl⟩)
            · exact hn2 (List.mem_map.2 ⟨p, h, rfl⟩)
          have : τ = (a, segs) :: (new ++ σ) := by
            simp [STab.put, hl'] at h
            exact h.1.symm
          refine ⟨(a, segs) :: new, this, by rw [← k1]; rfl, ?_, ?_⟩
          · intro p hp
            rcases List.mem_cons.1 hp with rfl | hp
            · exact hlen
            · exact sh1 p hp
          · rw [h2]
            simp only
            omega
  · exact ht.elim

/-- Distinct elements of a list have a sum that is at most that of the list. -/
theorem partsSum_le (H : Heap) : ∀ (met as : List Nat), met.Nodup → (∀ a ∈ met, a ∈ as) → partsSum H met ≤ partsSum H as := by
  intro met
  induction met with
  | nil => intro as _ _; exact Nat.zero_le _
  | cons a met ih =>
    intro as hn hs
    have hn := List.nodup_cons.1 hn
    have hp : as.Perm (a :: as.erase a) := List.perm_cons_erase (hs a List.mem_cons_self)
    have h1 := ih (as.erase a) hn.2 fun b hb => by
      refine (List.mem_erase_of_ne ?_).2 (hs b (List.mem_cons_of_mem _ hb))
      rintro rfl
      exact hn.1 hb
    have h2 : partsSum H as = partsSum H (a :: as.erase a) := (hp.map _).sum_nat
    rw [h2]
    show partsAt H a + partsSum H met ≤ partsAt H a + partsSum H (as.erase a)
    omega

end Verif.Core
