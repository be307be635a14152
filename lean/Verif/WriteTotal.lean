import Verif.RenderLemmas

/-!
# Success and failure of the writer

`wr_total`: the writer succeeds exactly on finite values. `wr_fail`: for types without classes DOM
serialization fails whenever the writer fails.
-/

namespace Verif.Core
open Verif.Numeric

/-- Every object in the table is finite. -/
def AllFinite (H : Heap) (σ : STab) : Prop := ∀ a ∈ σ.keys, ∀ t w, H a = some (t, w) → finite w = true

/-- The writer runs to its end and returns `finite v`. -/
def WrTot (env : Env) (H : Heap) (v : Val) : Prop :=
  ∀ t segs σ, HasTy env H v t → AllFinite H σ → ∃ σ' es, wr env v t segs σ = .done σ' (finite v) es ∧
    (finite v = true → AllFinite H σ')

theorem before_done {r : WRes} {σ : STab} {ok : Bool} {es pre : List Event} (h : r = .done σ ok es) :
    r.before pre = .done σ ok (pre ++ es) := by rw [h]; rfl

theorem close_done {r : WRes} {σ : STab} {ok : Bool} {es : List Event} (e : Event) (h : r = .done σ ok es) :
    ∃ es', r.close e = .done σ ok es' := by
  rw [h]
  cases ok
  · exact ⟨_, rfl⟩
  · exact ⟨_, rfl⟩

theorem wrTot_items (env : Env) (H : Heap) (vs : List Val) (hv : ∀ v ∈ vs, WrTot env H v) :
    ∀ ts k segs σ, HasTys env H vs ts → AllFinite H σ → ∃ σ' es,
      wrItems env vs ts k segs σ = .done σ' (finiteAll vs) es ∧ (finiteAll vs = true → AllFinite H σ') := by
  induction vs with
  | nil =>
    intro ts k segs σ ht hσ
    cases ts with
    | cons => simp [HasTys] at ht
    | nil => exact ⟨σ, [], by simp [wrItems, finiteAll], fun _ => hσ⟩
  | cons v vs ih =>
    intro ts k segs σ ht hσ
    cases ts with
    | nil => simp [HasTys] at ht
    | cons t ts =>
      simp only [HasTys] at ht
      obtain ⟨σ1, es1, h1, i1⟩ := hv v (by simp) t (.index k :: segs) σ ht.1 hσ
      simp only [wrItems, h1, finiteAll]
      cases hf : finite v with
      | false => exact ⟨σ1, es1, rfl, by simp⟩
      | true =>
        obtain ⟨σ2, es2, h2, i2⟩ := ih (fun w hw => hv w (by simp [hw])) ts (k + 1) segs σ1 ht.2 (i1 hf)
        exact ⟨σ2, es1 ++ es2, before_done h2, i2⟩

theorem wrTot_set (env : Env) (H : Heap) (t : Ty) (vs : List Val) (hv : ∀ v ∈ vs, WrTot env H v) :
    ∀ segs σ, (∀ v ∈ vs, HasTy env H v t) → AllFinite H σ → ∃ σ' es,
      wrSet env vs t segs σ = .done σ' (finiteAll vs) es ∧ (finiteAll vs = true → AllFinite H σ') := by
  induction vs with
  | nil =>
    intro segs σ ht hσ
    exact ⟨σ, [], by simp [wrSet, finiteAll], fun _ => hσ⟩
  | cons v vs ih =>
    intro segs σ ht hσ
    obtain ⟨σ1, es1, h1, i1⟩ := hv v (by simp) t segs σ (ht v (by simp)) hσ
    simp only [wrSet, h1, finiteAll]
    cases hf : finite v with
    | false => exact ⟨σ1, es1, rfl, by simp⟩
    | true =>
      obtain ⟨σ2, es2, h2, i2⟩ := ih (fun w hw => hv w (by simp [hw])) segs σ1 (fun w hw => ht w (by simp [hw])) (i1 hf)
      exact ⟨σ2, es1 ++ es2, before_done h2, i2⟩

theorem wrTot_vals (env : Env) (H : Heap) (t : Ty) (kvs : List (Str × Val)) (hv : ∀ p ∈ kvs, WrTot env H p.2) :
    ∀ segs σ, (∀ p ∈ kvs, HasTy env H p.2 t) → AllFinite H σ → ∃ σ' es,
      writeEntries (kvs.map fun p => (p.1, wr env p.2 t)) segs σ = .done σ' (finiteVals kvs) es ∧
      (finiteVals kvs = true → AllFinite H σ') := by
  induction kvs with
  | nil =>
    intro segs σ ht hσ
    exact ⟨σ, [], by simp [writeEntries, finiteVals], fun _ => hσ⟩
  | cons p kvs ih =>
    obtain ⟨key, v⟩ := p
    intro segs σ ht hσ
    obtain ⟨σ1, es1, h1, i1⟩ := hv (key, v) (by simp) t (Seg.name key :: segs) σ (ht _ (by simp)) hσ
    simp only [List.map_cons, writeEntries, h1, finiteVals]
    cases hf : finite v with
    | false => exact ⟨σ1, _, rfl, by simp⟩
    | true =>
      obtain ⟨σ2, es2, h2, i2⟩ := ih (fun w hw => hv w (by simp [hw])) segs σ1 (fun w hw => ht w (by simp [hw])) (i1 hf)
      exact ⟨σ2, _, before_done h2, i2⟩

theorem wrTot_members (env : Env) (H : Heap) (vs : List Val) (hv : ∀ w, sizeOf w < 1 + sizeOf vs → WrTot env H w) :
    ∀ ms segs σ, MembersTy env H vs ms → AllFinite H σ → ∃ σ' es,
      wrMembers env vs ms segs σ = .done σ' (finiteAll vs) es ∧ (finiteAll vs = true → AllFinite H σ') := by
  induction vs with
  | nil =>
    intro ms segs σ ht hσ
    cases ms with
    | cons => simp [MembersTy] at ht
    | nil => exact ⟨σ, [], by simp [wrMembers, finiteAll], fun _ => hσ⟩
  | cons v vs ih =>
    intro ms segs σ ht hσ
    have ih' := ih (fun w hw => hv w (by simp only [List.cons.sizeOf_spec]; omega))
    cases ms with
    | nil => simp [MembersTy] at ht
    | cons m ms =>
      rw [MembersTy_cons] at ht
      rw [wrMembers_cons]
      cases hk : fieldOf m.kind v with
      | bad => simp [hk] at ht
      | skip =>
        obtain ⟨-, rfl⟩ := fieldOf_skip hk
        obtain ⟨σ', es, h1, h2⟩ := ih' ms segs σ ht.2 hσ
        exact ⟨σ', es, by simpa [finiteAll, finite] using h1, by simpa [finiteAll, finite] using h2⟩
      | here w =>
        simp only [hk] at ht
        have hw : WrTot env H w := hv w (by have := fieldOf_size hk; simp only [List.cons.sizeOf_spec]; omega)
        obtain ⟨σ1, es1, h1, i1⟩ := hw m.ty (Seg.name m.name :: segs) σ ht.1 hσ
        simp only [h1, finiteAll, finite_field hk]
        cases hf : finite w with
        | false => exact ⟨σ1, _, rfl, by simp⟩
        | true =>
          obtain ⟨σ2, es2, h2, i2⟩ := ih' ms segs σ1 ht.2 (i1 hf)
          exact ⟨σ2, _, before_done h2, i2⟩

theorem finiteVals_perm {l1 l2 : List (Str × Val)} (h : l1.Perm l2) : finiteVals l1 = finiteVals l2 := by
  have := finiteVals_iff l1
  have := finiteVals_iff l2
  have : finiteVals l1 = true ↔ finiteVals l2 = true := by
    rw [finiteVals_iff, finiteVals_iff]
    exact ⟨fun hh p hp => hh p (h.mem_iff.2 hp), fun hh p hp => hh p (h.mem_iff.1 hp)⟩
  cases h1 : finiteVals l1 <;> cases h2 : finiteVals l2 <;> simp_all

theorem AllFinite.put {H : Heap} {σ : STab} (h : AllFinite H σ) {a : Nat} {t : Ty} {w : Val} (ha : H a = some (t, w))
    (hw : finite w = true) (segs : List Seg) : AllFinite H (σ.put a segs) := by
  unfold STab.put
  split
  · exact h
  · intro b hb t' w' hb'
    simp only [STab.keys, List.map_cons, List.mem_cons] at hb
    rcases hb with rfl | hb
    · rw [ha] at hb'
      cases hb'
      exact hw
    · exact h b hb t' w' hb'

theorem wr_total (env : Env) (hfair : env.Fair) (H : Heap) : ∀ v, WrTot env H v := by
  apply Val.strong
  intro v ih t segs σ ht hσ
  unfold HasTy at ht
  split at ht
  · rename_i p k
    have key : ∀ (b : Bool), (b = true → ∃ j, serPrim env k p = .ok j) → (b = false → serPrim env k p = .fail) →
        ∃ σ' es, wr env (.prim p) (.prim k) segs σ = .done σ' b es ∧ (b = true → AllFinite H σ') := by
      intro b h1 h2
      cases b with
      | true =>
        obtain ⟨j, hj⟩ := h1 rfl
        exact ⟨σ, _, by simp only [wr, hj]; rfl, fun _ => hσ⟩
      | false =>
        exact ⟨σ, [], by simp only [wr, h2 rfl], by simp⟩
    refine key _ (serPrim_ok env p k ht) ?_
    intro hb
    cases p with
    | flt f =>
      cases k with
      | flt t =>
        have hf : ¬ f.isFinite = true := by
          have : f.isFinite = false := hb
          simp [this]
        rw [serPrim_flt, if_neg hf]
      | _ => exact ht.elim
    | _ => simp [finite] at hb
  · rename_i vs t
    obtain ⟨σ', es, h1, h2⟩ := wrTot_items env H vs (fun w hw => ih w (by have := mem_size hw; simp; omega)) _ 0 segs σ
      (HasTys_replicate env H vs t ht) hσ
    obtain ⟨es', h3⟩ := close_done .endArr (before_done (pre := [.startArr]) h1)
    exact ⟨σ', es', by simp only [wr, finite]; exact h3, h2⟩
  · rename_i vs n t
    obtain ⟨rfl, ht⟩ := ht
    obtain ⟨σ', es, h1, h2⟩ := wrTot_items env H vs (fun w hw => ih w (by have := mem_size hw; simp; omega)) _ 0 segs σ
      (HasTys_replicate env H vs t ht) hσ
    obtain ⟨es', h3⟩ := close_done .endArr (before_done (pre := [.startArr]) h1)
    exact ⟨σ', es', by simp only [wr, finite, if_true]; exact h3, h2⟩
  · rename_i vs ts
    obtain ⟨σ', es, h1, h2⟩ := wrTot_items env H vs (fun w hw => ih w (by have := mem_size hw; simp; omega)) _ 0 segs σ ht hσ
    obtain ⟨es', h3⟩ := close_done .endArr (before_done (pre := [.startArr]) h1)
    exact ⟨σ', es', by simp only [wr, finite]; exact h3, h2⟩
  · rename_i vs t
    obtain ⟨σ', es, h1, h2⟩ := wrTot_set env H t vs (fun w hw => ih w (by have := mem_size hw; simp; omega)) segs σ
      ((AllTy_iff _ _ _ _).1 ht.1) hσ
    obtain ⟨es', h3⟩ := close_done .endArr (before_done (pre := [.startArr]) h1)
    exact ⟨σ', es', by simp only [wr, finite]; exact h3, h2⟩
  · rename_i kvs o t
    have hp := iterate_perm env hfair o segs kvs ht.2.nodup
    have hk := (ValsTy_iff _ _ _ _).1 ht.1
    obtain ⟨σ', es, h1, h2⟩ := wrTot_vals env H t (iterate env o segs kvs)
      (fun w hw => ih w.2 (by have := mem_size_kv (hp.mem_iff.1 hw); simp; omega)) segs σ
      (fun w hw => hk w (hp.mem_iff.1 hw)) hσ
    rw [finiteVals_perm hp] at h1 h2
    obtain ⟨es', h3⟩ := close_done .endObj (before_done (pre := [.startObj]) h1)
    refine ⟨σ', es', ?_, h2⟩
    simp only [wr, finite, wrVals_eq, iterate_map (g := fun p => wr env p.2 t)]
    exact h3
  · rename_i kvs t
    have hk := (ValsTy_iff _ _ _ _).1 ht
    obtain ⟨σ', es, h1, h2⟩ := wrTot_vals env H t kvs (fun w hw => ih w.2 (by have := mem_size_kv hw; simp; omega)) segs σ hk hσ
    obtain ⟨es', h3⟩ := close_done .endObj (before_done (pre := [.startObj]) h1)
    refine ⟨σ', es', ?_, h2⟩
    simp only [wr, finite, wrVals_eq]
    exact h3
  · rename_i i w ts
    obtain ⟨t, hi, ht⟩ := ht
    obtain ⟨σ', es, h1, h2⟩ := ih w (by simp; omega) t segs σ ht hσ
    exact ⟨σ', es, by simp only [wr, hi, h1, finite], h2⟩
  · rename_i vs c
    obtain ⟨σ', es, h1, h2⟩ := wrTot_members env H vs (fun w hw => ih w (by simp; omega)) _ segs σ ht hσ
    obtain ⟨es', h3⟩ := close_done .endObj (before_done (pre := [.startObj]) h1)
    exact ⟨σ', es', by simp only [wr, finite]; exact h3, h2⟩
  · rename_i w t
    obtain ⟨σ', es, h1, h2⟩ := ih w (by simp) t segs σ ht hσ
    exact ⟨σ', es, by simp only [wr, h1, finite], h2⟩
  · rename_i a w t
    simp only [wr]
    cases hg : σ.get a with
    | some s =>
      have hma : a ∈ σ.keys := by
        obtain ⟨l1, l2, rfl, -⟩ := List.lookup_eq_some_iff.1 hg
        simp [STab.keys]
      have hf : finite w = true := hσ a hma _ _ ht.1
      exact ⟨σ, _, by simp only [finite, hf]; rfl, fun _ => hσ⟩
    | none =>
      obtain ⟨σ', es, h1, h2⟩ := ih w (by simp; omega) t segs σ ht.2 hσ
      simp only [h1, finite]
      cases hf : finite w with
      | false => exact ⟨σ', es, rfl, by simp⟩
      | true => exact ⟨_, es, rfl, fun _ => (h2 hf).put ht.1 hf segs⟩
  · exact ht.elim

/-! ## Types without classes -/

mutual
/-- No class is part of the type. -/
def Ty.classFree : Ty → Bool
  | .prim _ => true
  | .vec t => t.classFree
  | .arr _ t => t.classFree
  | .set t => t.classFree
  | .map _ t => t.classFree
  | .dict t => t.classFree
  | .tuple ts => classFreeAll ts
  | .variant ts => classFreeAll ts
  | .cls _ => false
  | .uptr t => t.classFree
  | .sptr t => t.classFree

/-- `classFree` for lists. -/
def classFreeAll : List Ty → Bool
  | [] => true
  | t :: ts => t.classFree && classFreeAll ts
end

theorem classFreeAll_iff (ts : List Ty) : classFreeAll ts = true ↔ ∀ t ∈ ts, t.classFree = true := by
  induction ts with
  | nil => simp [classFreeAll]
  | cons t ts ih => simp [classFreeAll, ih]

/-- The DOM serializer fails where the writer fails. -/
def WrFail (env : Env) (v : Val) : Prop :=
  ∀ t segs σ σ' es, t.classFree = true → wr env v t segs σ = .done σ' false es → ser env v t segs σ = .done σ' none

theorem close_false {e : Event} {r : WRes} {σ : STab} {es : List Event} (h : r.close e = .done σ false es) :
    r = .done σ false es := by
  cases r with
  | ub => simp [WRes.close] at h
  | done σ' ok' es' =>
    cases ok' with
    | false => simpa [WRes.close] using h
    | true => simp [WRes.close] at h

theorem map_none {α β : Type} {f : α → β} {r : SRes α} {σ : STab} (h : r = .done σ none) : r.map f = .done σ none := by
  rw [h]; rfl

theorem wrFail_items (env : Env) (vs : List Val) (hv : ∀ v ∈ vs, WrFail env v) :
    ∀ ts k segs σ σ' es, (∀ t ∈ ts, t.classFree = true) → wrItems env vs ts k segs σ = .done σ' false es →
      serItems env vs ts k segs σ = .done σ' none := by
  induction vs with
  | nil =>
    intro ts k segs σ σ' es ht h
    cases ts <;> simp [wrItems] at h
  | cons v vs ih =>
    intro ts k segs σ σ' es ht h
    cases ts with
    | nil => simp [wrItems] at h
    | cons t ts =>
      simp only [wrItems] at h
      simp only [serItems]
      cases hw : wr env v t (.index k :: segs) σ with
      | ub => simp [hw] at h
      | done σ1 ok es1 =>
        cases ok with
        | false =>
          simp only [hw, WRes.done.injEq, true_and] at h
          rw [hv v (by simp) t _ _ _ _ (ht t (by simp)) hw, h.1]
        | true =>
          simp only [hw] at h
          obtain ⟨es2, h2, -⟩ := before_eq h
          obtain ⟨j, hj, -⟩ := wr_ser env v _ _ _ _ _ hw
          simp only [hj]
          exact map_none (ih (fun w hw => hv w (by simp [hw])) ts _ _ _ _ _ (fun t hm => ht t (by simp [hm])) h2)

theorem wrFail_set (env : Env) (t : Ty) (ht : t.classFree = true) (vs : List Val) (hv : ∀ v ∈ vs, WrFail env v) :
    ∀ segs σ σ' es, wrSet env vs t segs σ = .done σ' false es → serSet env vs t segs σ = .done σ' none := by
  induction vs with
  | nil =>
    intro segs σ σ' es h
    simp [wrSet] at h
  | cons v vs ih =>
    intro segs σ σ' es h
    simp only [wrSet] at h
    simp only [serSet]
    cases hw : wr env v t segs σ with
    | ub => simp [hw] at h
    | done σ1 ok es1 =>
      cases ok with
      | false =>
        simp only [hw, WRes.done.injEq, true_and] at h
        rw [hv v (by simp) t _ _ _ _ ht hw, h.1]
      | true =>
        simp only [hw] at h
        obtain ⟨es2, h2, -⟩ := before_eq h
        obtain ⟨j, hj, -⟩ := wr_ser env v _ _ _ _ _ hw
        simp only [hj]
        exact map_none (ih (fun w hw => hv w (by simp [hw])) _ _ _ _ h2)

theorem wrFail_vals (env : Env) (t : Ty) (ht : t.classFree = true) (kvs : List (Str × Val)) (hv : ∀ p ∈ kvs, WrFail env p.2) :
    ∀ segs σ σ' es, writeEntries (kvs.map fun p => (p.1, wr env p.2 t)) segs σ = .done σ' false es →
      serEntries (kvs.map fun p => (p.1, ser env p.2 t)) segs σ = .done σ' none := by
  induction kvs with
  | nil =>
    intro segs σ σ' es h
    simp [writeEntries] at h
  | cons p kvs ih =>
    obtain ⟨key, v⟩ := p
    intro segs σ σ' es h
    simp only [List.map_cons, writeEntries] at h
    simp only [List.map_cons, serEntries]
    cases hw : wr env v t (Seg.name key :: segs) σ with
    | ub => simp [hw] at h
    | done σ1 ok es1 =>
      cases ok with
      | false =>
        simp only [hw, WRes.done.injEq, true_and] at h
        rw [hv (key, v) (by simp) t _ _ _ _ ht hw, h.1]
      | true =>
        simp only [hw] at h
        obtain ⟨es2, h2, -⟩ := before_eq h
        obtain ⟨j, hj, -⟩ := wr_ser env v _ _ _ _ _ hw
        simp only [hj]
        exact map_none (ih (fun w hw => hv w (by simp [hw])) _ _ _ _ h2)

theorem wr_fail (env : Env) : ∀ v, WrFail env v := by
  apply Val.strong
  intro v ih t segs σ σ' es ht h
  unfold wr at h
  split at h
  · rename_i p k
    simp only [ser]
    cases hp : serPrim env k p with
    | ub => simp [hp] at h
    | fail =>
      simp only [hp, WRes.done.injEq, true_and] at h
      rw [h.1]
    | ok j => simp [hp] at h
  · rename_i vs t
    obtain ⟨es2, h2, -⟩ := before_eq (close_false h)
    simp only [ser]
    refine map_none (wrFail_items env vs (fun w hw => ih w (by have := mem_size hw; simp; omega)) _ _ _ _ _ _ ?_ h2)
    intro t' hm
    rw [List.eq_of_mem_replicate hm]
    simpa only [Ty.classFree] using ht
  · rename_i vs n t
    split at h
    · rename_i hn
      obtain ⟨es2, h2, -⟩ := before_eq (close_false h)
      simp only [ser, hn, if_true]
      refine map_none (wrFail_items env vs (fun w hw => ih w (by have := mem_size hw; simp; omega)) _ _ _ _ _ _ ?_ h2)
      intro t' hm
      rw [List.eq_of_mem_replicate hm]
      simpa only [Ty.classFree] using ht
    · simp at h
  · rename_i vs ts
    obtain ⟨es2, h2, -⟩ := before_eq (close_false h)
    simp only [ser]
    refine map_none (wrFail_items env vs (fun w hw => ih w (by have := mem_size hw; simp; omega)) _ _ _ _ _ _ ?_ h2)
    simp only [Ty.classFree] at ht
    exact (classFreeAll_iff ts).1 ht
  · rename_i vs t
    obtain ⟨es2, h2, -⟩ := before_eq (close_false h)
    simp only [ser]
    exact map_none (wrFail_set env t (by simpa only [Ty.classFree] using ht) vs (fun w hw => ih w (by have := mem_size hw; simp; omega)) _ _ _ _ h2)
  · rename_i kvs o t
    obtain ⟨es2, h2, -⟩ := before_eq (close_false h)
    rw [wrVals_eq, iterate_map (g := fun p => wr env p.2 t)] at h2
    have hsub : ∀ p ∈ iterate env o segs kvs, p ∈ kvs := by
      intro p hp
      unfold iterate at hp
      split at hp
      · exact hp
      · unfold inOrder at hp
        simp only [List.mem_filterMap, Option.map_eq_some_iff] at hp
        obtain ⟨k, -, a, ha, rfl⟩ := hp
        obtain ⟨l1, l2, rfl, -⟩ := List.lookup_eq_some_iff.1 ha
        simp
    simp only [ser, serVals_eq, iterate_map (g := fun p => ser env p.2 t)]
    exact map_none (wrFail_vals env t (by simpa only [Ty.classFree] using ht) _
      (fun p hp => ih p.2 (by have := mem_size_kv (hsub p hp); simp; omega)) _ _ _ _ h2)
  · rename_i kvs t
    obtain ⟨es2, h2, -⟩ := before_eq (close_false h)
    rw [wrVals_eq] at h2
    simp only [ser, serVals_eq]
    exact map_none (wrFail_vals env t (by simpa only [Ty.classFree] using ht) _
      (fun p hp => ih p.2 (by have := mem_size_kv hp; simp; omega)) _ _ _ _ h2)
  · rename_i i w ts
    simp only [ser]
    split at h
    · rename_i t' hi
      rw [hi]
      refine ih w (by simp; omega) _ _ _ _ _ ?_ h
      simp only [Ty.classFree] at ht
      exact (classFreeAll_iff ts).1 ht _ (List.mem_of_getElem? hi)
    · simp at h
  · simp [Ty.classFree] at ht
  · rename_i w t
    simp only [ser]
    exact ih w (by simp) _ _ _ _ _ (by simpa only [Ty.classFree] using ht) h
  · rename_i a w t
    simp only [ser]
    cases hg : σ.get a with
    | some s => simp [hg] at h
    | none =>
      simp only [hg] at h
      cases hw : wr env w t segs σ with
      | ub => simp [hw] at h
      | done σ1 ok es1 =>
        cases ok with
        | true => simp [hw] at h
        | false =>
          simp only [hw, WRes.done.injEq, true_and] at h
          have := ih w (by simp; omega) _ _ _ _ _ (by simpa only [Ty.classFree] using ht) hw
          simp only [this, h.1]
  · simp at h

end Verif.Core
