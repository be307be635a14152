import Verif.Typing

/-!
# The two output paths

`wr_ser`: whenever the writer succeeds, DOM serialization succeeds with a document that has the same
events. `wr_total`: the writer succeeds exactly on finite values.
-/

namespace Verif.Core
open Verif.Numeric

theorem before_eq {pre : List Event} {r : WRes} {σ : STab} {ok : Bool} {es : List Event} (h : r.before pre = .done σ ok es) :
    ∃ es', r = .done σ ok es' ∧ es = pre ++ es' := by
  cases r with
  | ub => simp [WRes.before] at h
  | done σ' ok' es' =>
    simp only [WRes.before, WRes.done.injEq] at h
    obtain ⟨rfl, rfl, rfl⟩ := h
    exact ⟨es', rfl, rfl⟩

theorem close_true {e : Event} {r : WRes} {σ : STab} {es : List Event} (h : r.close e = .done σ true es) :
    ∃ es', r = .done σ true es' ∧ es = es' ++ [e] := by
  cases r with
  | ub => simp [WRes.close] at h
  | done σ' ok' es' =>
    cases ok' with
    | false => simp [WRes.close] at h
    | true =>
      simp only [WRes.close, WRes.done.injEq, true_and] at h
      obtain ⟨rfl, rfl⟩ := h
      exact ⟨es', rfl, rfl⟩

/-- Statement of `wr_ser` for one value. -/
def WrSer (env : Env) (v : Val) : Prop :=
  ∀ t segs σ σ' es, wr env v t segs σ = .done σ' true es →
    ∃ j, ser env v t segs σ = .done σ' (some j) ∧ events j = es

theorem wrSer_items (env : Env) (vs : List Val) (hv : ∀ v ∈ vs, WrSer env v) :
    ∀ ts k segs σ σ' es, wrItems env vs ts k segs σ = .done σ' true es →
      ∃ js, serItems env vs ts k segs σ = .done σ' (some js) ∧ eventsItems js = es := by
  induction vs with
  | nil =>
    intro ts k segs σ σ' es h
    cases ts with
    | cons t ts => simp [wrItems] at h
    | nil =>
      simp only [wrItems, WRes.done.injEq, true_and] at h
      obtain ⟨rfl, rfl⟩ := h
      exact ⟨[], by simp [serItems], by simp [eventsItems]⟩
  | cons v vs ih =>
    intro ts k segs σ σ' es h
    cases ts with
    | nil => simp [wrItems] at h
    | cons t ts =>
      simp only [wrItems] at h
      cases hw : wr env v t (.index k :: segs) σ with
      | ub => simp [hw] at h
      | done σ1 ok es1 =>
        cases ok with
        | false => simp [hw] at h
        | true =>
          simp only [hw] at h
          obtain ⟨es2, h2, rfl⟩ := before_eq h
          obtain ⟨j, hj, hje⟩ := hv v (by simp) _ _ _ _ _ hw
          obtain ⟨js, hjs, hjse⟩ := ih (fun w hw => hv w (by simp [hw])) _ _ _ _ _ _ h2
          exact ⟨j :: js, by simp [serItems, hj, hjs, SRes.map], by simp [eventsItems, hje, hjse]⟩

theorem wrSer_set (env : Env) (vs : List Val) (hv : ∀ v ∈ vs, WrSer env v) :
    ∀ t segs σ σ' es, wrSet env vs t segs σ = .done σ' true es →
      ∃ js, serSet env vs t segs σ = .done σ' (some js) ∧ eventsItems js = es := by
  induction vs with
  | nil =>
    intro t segs σ σ' es h
    simp only [wrSet, WRes.done.injEq, true_and] at h
    obtain ⟨rfl, rfl⟩ := h
    exact ⟨[], by simp [serSet], by simp [eventsItems]⟩
  | cons v vs ih =>
    intro t segs σ σ' es h
    simp only [wrSet] at h
    cases hw : wr env v t segs σ with
    | ub => simp [hw] at h
    | done σ1 ok es1 =>
      cases ok with
      | false => simp [hw] at h
      | true =>
        simp only [hw] at h
        obtain ⟨es2, h2, rfl⟩ := before_eq h
        obtain ⟨j, hj, hje⟩ := hv v (by simp) _ _ _ _ _ hw
        obtain ⟨js, hjs, hjse⟩ := ih (fun w hw => hv w (by simp [hw])) _ _ _ _ _ h2
        exact ⟨j :: js, by simp [serSet, hj, hjs, SRes.map], by simp [eventsItems, hje, hjse]⟩

theorem wrSer_entries (env : Env) (t : Ty) (kvs : List (Str × Val)) (hv : ∀ p ∈ kvs, WrSer env p.2) :
    ∀ segs σ σ' es, writeEntries (kvs.map fun p => (p.1, wr env p.2 t)) segs σ = .done σ' true es →
      ∃ js, serEntries (kvs.map fun p => (p.1, ser env p.2 t)) segs σ = .done σ' (some js) ∧ eventsMembers js = es := by
  induction kvs with
  | nil =>
    intro segs σ σ' es h
    simp only [List.map_nil, writeEntries, WRes.done.injEq, true_and] at h
    obtain ⟨rfl, rfl⟩ := h
    exact ⟨[], by simp [serEntries], by simp [eventsMembers]⟩
  | cons p kvs ih =>
    obtain ⟨k, v⟩ := p
    intro segs σ σ' es h
    simp only [List.map_cons, writeEntries] at h
    cases hw : wr env v t (Seg.name k :: segs) σ with
    | ub => simp [hw] at h
    | done σ1 ok es1 =>
      cases ok with
      | false => simp [hw] at h
      | true =>
        simp only [hw] at h
        obtain ⟨es2, h2, rfl⟩ := before_eq h
        obtain ⟨j, hj, hje⟩ := hv (k, v) (by simp) _ _ _ _ _ hw
        obtain ⟨js, hjs, hjse⟩ := ih (fun w hw => hv w (by simp [hw])) _ _ _ _ h2
        exact ⟨(k, j) :: js, by simp [serEntries, hj, hjs, SRes.map], by simp [eventsMembers, hje, hjse]⟩

/-- How a member is stored: a missing `std::optional`, a present value, or an ill-typed entry. -/
inductive Field where
  | skip
  | bad
  | here (w : Val)

/-- The member value to write, given its kind (serialize_object.hpp:26-44, write_object.hpp:26-44). -/
def fieldOf : Kind → Val → Field
  | .optional, .absent => .skip
  | .optional, .present w => .here w
  | .optional, _ => .bad
  | _, v => .here v

theorem fieldOf_here {k : Kind} {v w : Val} (h : fieldOf k v = .here w) : (k = .optional ∧ v = .present w) ∨ (k ≠ .optional ∧ v = w) := by
  cases k <;> cases v <;> simp_all [fieldOf]

theorem fieldOf_size {k : Kind} {v w : Val} (h : fieldOf k v = .here w) : sizeOf w ≤ sizeOf v := by
  rcases fieldOf_here h with ⟨-, rfl⟩ | ⟨-, rfl⟩
  · simp
  · omega

theorem wrMembers_cons (env : Env) (v : Val) (vs : List Val) (m : Member) (ms : List Member) (segs : List Seg) (σ : STab) :
    wrMembers env (v :: vs) (m :: ms) segs σ =
      match fieldOf m.kind v with
      | .skip => wrMembers env vs ms segs σ
      | .bad => .ub
      | .here w =>
          match wr env w m.ty (Seg.name m.name :: segs) σ with
          | .ub => .ub
          | .done σ' false es => .done σ' false (.key m.name :: es)
          | .done σ' true es => (wrMembers env vs ms segs σ').before (.key m.name :: es) := by
  obtain ⟨name, kind, ty⟩ := m
  cases kind <;> cases v <;> simp only [wrMembers, fieldOf] <;> rfl

theorem serMembers_cons (env : Env) (v : Val) (vs : List Val) (m : Member) (ms : List Member) (segs : List Seg) (σ : STab) :
    serMembers env (v :: vs) (m :: ms) segs σ =
      match fieldOf m.kind v with
      | .skip => serMembers env vs ms segs σ
      | .bad => .ub
      | .here w =>
          match ser env w m.ty (Seg.name m.name :: segs) σ with
          | .ub => .ub
          | .done σ' none => serMembers env vs ms segs σ'
          | .done σ' (some j) => (serMembers env vs ms segs σ').map ((m.name, j) :: ·) := by
  obtain ⟨name, kind, ty⟩ := m
  cases kind <;> cases v <;> simp only [serMembers, fieldOf] <;> rfl

theorem wrSer_members (env : Env) (vs : List Val) (hv : ∀ w, sizeOf w < 1 + sizeOf vs → WrSer env w) :
    ∀ ms segs σ σ' es, wrMembers env vs ms segs σ = .done σ' true es →
      ∃ js, serMembers env vs ms segs σ = .done σ' (some js) ∧ eventsMembers js = es := by
  induction vs with
  | nil =>
    intro ms segs σ σ' es h
    cases ms with
    | cons => simp [wrMembers] at h
    | nil =>
      simp only [wrMembers, WRes.done.injEq, true_and] at h
      obtain ⟨rfl, rfl⟩ := h
      exact ⟨[], by simp [serMembers], by simp [eventsMembers]⟩
  | cons v vs ih =>
    intro ms segs σ σ' es h
    have ih' := ih (fun w hw => hv w (by simp only [List.cons.sizeOf_spec]; omega))
    cases ms with
    | nil => simp [wrMembers] at h
    | cons m ms =>
      rw [wrMembers_cons] at h
      rw [serMembers_cons]
      cases hf : fieldOf m.kind v with
      | bad => simp [hf] at h
      | skip =>
        simp only [hf] at h
        exact ih' _ _ _ _ _ h
      | here w =>
        have hw : WrSer env w := hv w (by have := fieldOf_size hf; simp only [List.cons.sizeOf_spec]; omega)
        simp only [hf] at h
        cases hr : wr env w m.ty (Seg.name m.name :: segs) σ with
        | ub => simp [hr] at h
        | done σ1 ok es1 =>
          cases ok with
          | false => simp [hr] at h
          | true =>
            simp only [hr] at h
            obtain ⟨es2, h2, rfl⟩ := before_eq h
            obtain ⟨j, hj, hje⟩ := hw _ _ _ _ _ hr
            obtain ⟨js, hjs, hjse⟩ := ih' _ _ _ _ _ h2
            exact ⟨(m.name, j) :: js, by simp [hj, hjs, SRes.map], by simp [eventsMembers, hje, hjse]⟩

theorem map_some {α β : Type} {f : α → β} {r : SRes α} {σ : STab} {b : α} (h : r = .done σ (some b)) :
    r.map f = .done σ (some (f b)) := by rw [h]; rfl

theorem wr_ser (env : Env) : ∀ v, WrSer env v := by
  apply Val.strong
  intro v ih t segs σ σ' es h
  unfold wr at h
  split at h
  · rename_i p k
    simp only [ser]
    cases hp : serPrim env k p with
    | ub => simp [hp] at h
    | fail => simp [hp] at h
    | ok j =>
      simp only [hp, WRes.done.injEq, true_and] at h
      obtain ⟨rfl, rfl⟩ := h
      exact ⟨j, rfl, rfl⟩
  · rename_i vs t
    obtain ⟨es1, h1, rfl⟩ := close_true h
    obtain ⟨es2, h2, rfl⟩ := before_eq h1
    obtain ⟨js, h3, h4⟩ := wrSer_items env vs (fun w hw => ih w (by have := mem_size hw; simp; omega)) _ _ _ _ _ _ h2
    exact ⟨.arr js, by simp only [ser]; exact map_some h3, by simp [events, h4]⟩
  · rename_i vs n t
    split at h
    · rename_i hn
      obtain ⟨es1, h1, rfl⟩ := close_true h
      obtain ⟨es2, h2, rfl⟩ := before_eq h1
      obtain ⟨js, h3, h4⟩ := wrSer_items env vs (fun w hw => ih w (by have := mem_size hw; simp; omega)) _ _ _ _ _ _ h2
      exact ⟨.arr js, by simp only [ser, hn, if_true]; exact map_some h3, by simp [events, h4]⟩
    · simp at h
  · rename_i vs ts
    obtain ⟨es1, h1, rfl⟩ := close_true h
    obtain ⟨es2, h2, rfl⟩ := before_eq h1
    obtain ⟨js, h3, h4⟩ := wrSer_items env vs (fun w hw => ih w (by have := mem_size hw; simp; omega)) _ _ _ _ _ _ h2
    exact ⟨.arr js, by simp only [ser]; exact map_some h3, by simp [events, h4]⟩
  · rename_i vs t
    obtain ⟨es1, h1, rfl⟩ := close_true h
    obtain ⟨es2, h2, rfl⟩ := before_eq h1
    obtain ⟨js, h3, h4⟩ := wrSer_set env vs (fun w hw => ih w (by have := mem_size hw; simp; omega)) _ _ _ _ _ h2
    exact ⟨.arr js, by simp only [ser]; exact map_some h3, by simp [events, h4]⟩
  · rename_i kvs ordered t
    obtain ⟨es1, h1, rfl⟩ := close_true h
    obtain ⟨es2, h2, rfl⟩ := before_eq h1
    rw [wrVals_eq, iterate_map (g := fun p => wr env p.2 t)] at h2
    have hsub : ∀ p ∈ iterate env ordered segs kvs, p ∈ kvs := by
      intro p hp
      unfold iterate at hp
      split at hp
      · exact hp
      · unfold inOrder at hp
        simp only [List.mem_filterMap, Option.map_eq_some_iff] at hp
        obtain ⟨k, -, a, ha, rfl⟩ := hp
        obtain ⟨l1, l2, rfl, -⟩ := List.lookup_eq_some_iff.1 ha
        simp
    obtain ⟨js, h3, h4⟩ := wrSer_entries env t _ (fun p hp => ih p.2 (by have := mem_size_kv (hsub p hp); simp; omega)) _ _ _ _ h2
    refine ⟨.obj js, ?_, by simp [events, h4]⟩
    simp only [ser, serVals_eq, iterate_map (g := fun p => ser env p.2 t)]
    exact map_some h3
  · rename_i kvs t
    obtain ⟨es1, h1, rfl⟩ := close_true h
    obtain ⟨es2, h2, rfl⟩ := before_eq h1
    rw [wrVals_eq] at h2
    obtain ⟨js, h3, h4⟩ := wrSer_entries env t _ (fun p hp => ih p.2 (by have := mem_size_kv hp; simp; omega)) _ _ _ _ h2
    refine ⟨.obj js, ?_, by simp [events, h4]⟩
    simp only [ser, serVals_eq]
    exact map_some h3
  · rename_i i v ts
    simp only [ser]
    split at h
    · rename_i t' ht
      rw [ht]
      exact ih v (by simp; omega) _ _ _ _ _ h
    · simp at h
  · rename_i vs c
    obtain ⟨es1, h1, rfl⟩ := close_true h
    obtain ⟨es2, h2, rfl⟩ := before_eq h1
    obtain ⟨js, h3, h4⟩ := wrSer_members env vs (fun w hw => ih w (by simp; omega)) _ _ _ _ _ h2
    exact ⟨.obj js, by simp only [ser]; exact map_some h3, by simp [events, h4]⟩
  · rename_i v t
    simp only [ser]
    exact ih v (by simp) _ _ _ _ _ h
  · rename_i a v t
    simp only [ser]
    cases hg : σ.get a with
    | some s =>
      simp only [hg, WRes.done.injEq, true_and] at h
      obtain ⟨rfl, rfl⟩ := h
      exact ⟨_, rfl, by simp [events, eventsMembers]⟩
    | none =>
      simp only [hg] at h
      cases hw : wr env v t segs σ with
      | ub => simp [hw] at h
      | done σ1 ok es1 =>
        cases ok with
        | false => simp [hw] at h
        | true =>
          simp only [hw, WRes.done.injEq, true_and] at h
          obtain ⟨rfl, rfl⟩ := h
          obtain ⟨j, hj, hje⟩ := ih v (by simp; omega) _ _ _ _ _ hw
          exact ⟨j, by simp [hj], hje⟩
  · simp at h

end Verif.Core
