import Verif.WriteTotal

/-!
# What the DOM serializer leaves out

`JsonObjectSerializer` drops the members that cannot be serialized (serialize_object.hpp:65-67); everything else fails as a
whole. `survives` says which values are serialized, `Remains` what the document of such a value consists of.
-/

namespace Verif.Core

mutual
/-- There is no infinity and no NaN outside of members of classes (specification). -/
def survives : Val → Bool
  | .prim (.flt f) => f.isFinite
  | .prim _ => true
  | .seq vs => survivesAll vs
  | .tup vs => survivesAll vs
  | .set vs => survivesAll vs
  | .map kvs => survivesVals kvs
  | .dict kvs => survivesVals kvs
  | .alt _ v => survives v
  | .obj _ => true
  | .absent => true
  | .present v => survives v
  | .nullptr => true
  | .uptr v => survives v
  | .sptr _ v => survives v

/-- `survives` for lists. -/
def survivesAll : List Val → Bool
  | [] => true
  | v :: vs => survives v && survivesAll vs

/-- `survives` for the values of a map. -/
def survivesVals : List (Str × Val) → Bool
  | [] => true
  | (_, v) :: kvs => survives v && survivesVals kvs
end

mutual
/-- The document shows the value except for the members of classes that do not survive. Only the objects in `S` are shown as
references (specification). -/
inductive Remains (env : Env) (S : Nat → Prop) : Val → Ty → Json → Prop where
  | prim {p k j} : serPrim env k p = .ok j → Remains env S (.prim p) (.prim k) j
  | vec {vs t js} : RemainsItems env S vs (List.replicate vs.length t) js → Remains env S (.seq vs) (.vec t) (.arr js)
  | arr {vs n t js} : RemainsItems env S vs (List.replicate n t) js → Remains env S (.tup vs) (.arr n t) (.arr js)
  | tuple {vs ts js} : RemainsItems env S vs ts js → Remains env S (.tup vs) (.tuple ts) (.arr js)
  | set {vs t js} : RemainsItems env S vs (List.replicate vs.length t) js → Remains env S (.set vs) (.set t) (.arr js)
  | map {kvs kvs' ordered t js} : kvs'.Perm kvs → (ordered = true → kvs' = kvs) → RemainsVals env S kvs' t js →
      Remains env S (.map kvs) (.map ordered t) (.obj js)
  | dict {kvs t js} : RemainsVals env S kvs t js → Remains env S (.dict kvs) (.dict t) (.obj js)
  | alt {i v ts t j} : ts[i]? = some t → Remains env S v t j → Remains env S (.alt i v) (.variant ts) j
  | cls {vs c js} : RemainsMembers env S vs (env.members c) js → Remains env S (.obj vs) (.cls c) (.obj js)
  | uptr {v t j} : Remains env S v t j → Remains env S (.uptr v) (.uptr t) j
  | full {a v t j} : Remains env S v t j → Remains env S (.sptr a v) (.sptr t) j
  | ref {a v t p} : S a → Remains env S (.sptr a v) (.sptr t) (.obj [(lit "$ref", .str p)])

/-- `Remains` element by element. -/
inductive RemainsItems (env : Env) (S : Nat → Prop) : List Val → List Ty → List Json → Prop where
  | nil : RemainsItems env S [] [] []
  | cons {v vs t ts j js} : Remains env S v t j → RemainsItems env S vs ts js → RemainsItems env S (v :: vs) (t :: ts) (j :: js)

/-- `Remains` for the entries of a map. -/
inductive RemainsVals (env : Env) (S : Nat → Prop) : List (Str × Val) → Ty → List (Str × Json) → Prop where
  | nil {t} : RemainsVals env S [] t []
  | cons {key v kvs t j js} : Remains env S v t j → RemainsVals env S kvs t js → RemainsVals env S ((key, v) :: kvs) t ((key, j) :: js)

/-- `Remains` for the members of a class: members that do not survive are not there. -/
inductive RemainsMembers (env : Env) (S : Nat → Prop) : List Val → List Member → List (Str × Json) → Prop where
  | nil : RemainsMembers env S [] [] []
  | skip {v vs m ms js} : fieldOf m.kind v = .skip → RemainsMembers env S vs ms js → RemainsMembers env S (v :: vs) (m :: ms) js
  | drop {v w vs m ms js} : fieldOf m.kind v = .here w → survives w = false → RemainsMembers env S vs ms js →
      RemainsMembers env S (v :: vs) (m :: ms) js
  | keep {v w vs m ms j js} : fieldOf m.kind v = .here w → survives w = true → Remains env S w m.ty j → RemainsMembers env S vs ms js →
      RemainsMembers env S (v :: vs) (m :: ms) ((m.name, j) :: js)
end

/-! ## Tables -/

/-- The objects in the table survive. -/
def AllSurvive (H : Heap) (σ : STab) : Prop := ∀ a ∈ σ.keys, ∀ t w, H a = some (t, w) → survives w = true

theorem AllSurvive.put {H : Heap} {σ : STab} (h : AllSurvive H σ) {a : Nat} {t : Ty} {w : Val} (ha : H a = some (t, w))
    (hw : survives w = true) (segs : List Seg) : AllSurvive H (σ.put a segs) := by
  unfold STab.put
  split
  · exact h
  · intro b hb t' w' hb'
    simp only [STab.keys, List.map_cons, List.mem_cons] at hb
    rcases hb with rfl | hb
    · rw [ha] at hb'
      cases hb'
      exact hw
    · exact h b hb t' w' hb'

theorem mem_keys_put {σ : STab} {a b : Nat} {segs : List Seg} (h : b ∈ (σ.put a segs).keys) : b = a ∨ b ∈ σ.keys := by
  unfold STab.put at h
  split at h
  · exact .inr h
  · simpa [STab.keys] using h

/-- Whether the object is in the table, as a number. -/
def STab.holds (σ : STab) (a : Nat) : Nat := if a ∈ σ.keys then 1 else 0

theorem holds_le {σ σ' : STab} {l : List Nat} (h : ∀ a ∈ σ'.keys, a ∈ σ.keys ∨ a ∈ l) (a : Nat) : σ'.holds a ≤ σ.holds a + l.count a := by
  unfold STab.holds
  split
  · rename_i hm
    rcases h a hm with h | h
    · rw [if_pos h]; omega
    · have := List.count_pos_iff.2 h; omega
  · omega

/-- What is known after a part with the given shared objects has been serialized. -/
structure After (H : Heap) (σ σ' : STab) (l : List Nat) : Prop where
  all : AllSurvive H σ'
  keys : ∀ a ∈ σ'.keys, a ∈ σ.keys ∨ a ∈ l

/-- The objects that may be referred to. -/
def May (S : Nat → Prop) (σ : STab) (l : List Nat) : Prop := ∀ a, 2 ≤ σ.holds a + l.count a → S a

theorem May.left {S : Nat → Prop} {σ : STab} {l l' : List Nat} (h : May S σ (l ++ l')) : May S σ l := by
  intro a ha
  exact h a (by rw [List.count_append]; omega)

theorem May.right {S : Nat → Prop} {σ σ' : STab} {l l' : List Nat} (h : May S σ (l ++ l')) (hk : ∀ a ∈ σ'.keys, a ∈ σ.keys ∨ a ∈ l) : May S σ' l' := by
  intro a ha
  have := holds_le hk a
  exact h a (by rw [List.count_append]; omega)

theorem May.mono {S : Nat → Prop} {σ : STab} {l l' : List Nat} (h : May S σ l) (hl : ∀ a, l'.count a ≤ l.count a) : May S σ l' :=
  fun a ha => h a (by have := hl a; omega)

theorem After.trans {H : Heap} {σ σ1 σ2 : STab} {l l' : List Nat} (h1 : After H σ σ1 l) (h2 : After H σ1 σ2 l') : After H σ σ2 (l ++ l') := by
  refine ⟨h2.all, fun a ha => ?_⟩
  rcases h2.keys a ha with h | h
  · rcases h1.keys a h with h | h
    · exact .inl h
    · exact .inr (by simp [h])
  · exact .inr (by simp [h])

theorem After.mono {H : Heap} {σ σ' : STab} {l l' : List Nat} (h : After H σ σ' l) (hl : ∀ a ∈ l, a ∈ l') : After H σ σ' l' :=
  ⟨h.all, fun a ha => (h.keys a ha).imp id (hl a)⟩

/-! ## The serializer -/

/-- What the serializer returns. -/
def Returned {α : Type} (r : Option α) (ok : Bool) (P : α → Prop) : Prop :=
  match r with
  | some x => ok = true ∧ P x
  | none => ok = false

/-- The serializer runs to its end, fails iff the value does not survive, and gives what remains. -/
def SerTot (env : Env) (H : Heap) (S : Nat → Prop) (v : Val) : Prop :=
  ∀ t segs σ, HasTy env H v t → AllSurvive H σ → May S σ (addrs v) →
    ∃ σ' r, ser env v t segs σ = .done σ' r ∧ After H σ σ' (addrs v) ∧ Returned r (survives v) (Remains env S v t)

theorem serTot_items (env : Env) (H : Heap) (S : Nat → Prop) (vs : List Val) (hv : ∀ v ∈ vs, SerTot env H S v) :
    ∀ ts k segs σ, HasTys env H vs ts → AllSurvive H σ → May S σ (addrsAll vs) →
      ∃ σ' r, serItems env vs ts k segs σ = .done σ' r ∧ After H σ σ' (addrsAll vs) ∧ Returned r (survivesAll vs) (RemainsItems env S vs ts) := by
  induction vs with
  | nil =>
    intro ts k segs σ ht hσ _
    cases ts with
    | cons => simp [HasTys] at ht
    | nil => exact ⟨σ, some [], by simp [serItems], ⟨hσ, fun a ha => .inl ha⟩, rfl, .nil⟩
  | cons v vs ih =>
    intro ts k segs σ ht hσ hm
    cases ts with
    | nil => simp [HasTys] at ht
    | cons t ts =>
      simp only [HasTys] at ht
      rw [addrsAll] at hm
      obtain ⟨σ1, r1, h1, a1, q1⟩ := hv v (by simp) t (.index k :: segs) σ ht.1 hσ hm.left
      simp only [serItems, h1, survivesAll, addrsAll]
      cases r1 with
      | none => exact ⟨σ1, none, rfl, a1.mono (by simp +contextual), by simp [Returned, show survives v = false from q1]⟩
      | some j =>
        obtain ⟨σ2, r2, h2, a2, q2⟩ := ih (fun w hw => hv w (by simp [hw])) ts (k + 1) segs σ1 ht.2 a1.all (hm.right a1.keys)
        refine ⟨σ2, r2.map (j :: ·), by simp only [h2, SRes.map], a1.trans a2, ?_⟩
        rw [q1.1, Bool.true_and]
        cases r2 with
        | none => exact q2
        | some js => exact ⟨q2.1, .cons q1.2 q2.2⟩

theorem serTot_set (env : Env) (H : Heap) (S : Nat → Prop) (t : Ty) (vs : List Val) (hv : ∀ v ∈ vs, SerTot env H S v) :
    ∀ segs σ, (∀ v ∈ vs, HasTy env H v t) → AllSurvive H σ → May S σ (addrsAll vs) →
      ∃ σ' r, serSet env vs t segs σ = .done σ' r ∧ After H σ σ' (addrsAll vs) ∧
        Returned r (survivesAll vs) (RemainsItems env S vs (List.replicate vs.length t)) := by
  induction vs with
  | nil =>
    intro segs σ ht hσ _
    exact ⟨σ, some [], by simp [serSet], ⟨hσ, fun a ha => .inl ha⟩, rfl, .nil⟩
  | cons v vs ih =>
    intro segs σ ht hσ hm
    rw [addrsAll] at hm
    obtain ⟨σ1, r1, h1, a1, q1⟩ := hv v (by simp) t segs σ (ht v (by simp)) hσ hm.left
    simp only [serSet, h1, survivesAll, addrsAll, List.length_cons, List.replicate_succ]
    cases r1 with
    | none => exact ⟨σ1, none, rfl, a1.mono (by simp +contextual), by simp [Returned, show survives v = false from q1]⟩
    | some j =>
      obtain ⟨σ2, r2, h2, a2, q2⟩ := ih (fun w hw => hv w (by simp [hw])) segs σ1 (fun w hw => ht w (by simp [hw])) a1.all (hm.right a1.keys)
      refine ⟨σ2, r2.map (j :: ·), by simp only [h2, SRes.map], a1.trans a2, ?_⟩
      rw [q1.1, Bool.true_and]
      cases r2 with
      | none => exact q2
      | some js => exact ⟨q2.1, .cons q1.2 q2.2⟩

theorem serTot_vals (env : Env) (H : Heap) (S : Nat → Prop) (t : Ty) (kvs : List (Str × Val)) (hv : ∀ p ∈ kvs, SerTot env H S p.2) :
    ∀ segs σ, (∀ p ∈ kvs, HasTy env H p.2 t) → AllSurvive H σ → May S σ (addrsVals kvs) →
      ∃ σ' r, serEntries (kvs.map fun p => (p.1, ser env p.2 t)) segs σ = .done σ' r ∧ After H σ σ' (addrsVals kvs) ∧
        Returned r (survivesVals kvs) (RemainsVals env S kvs t) := by
  induction kvs with
  | nil =>
    intro segs σ ht hσ _
    exact ⟨σ, some [], by simp [serEntries], ⟨hσ, fun a ha => .inl ha⟩, rfl, .nil⟩
  | cons p kvs ih =>
    obtain ⟨key, v⟩ := p
    intro segs σ ht hσ hm
    rw [addrsVals] at hm
    obtain ⟨σ1, r1, h1, a1, q1⟩ := hv (key, v) (by simp) t (Seg.name key :: segs) σ (ht _ (by simp)) hσ hm.left
    simp only [List.map_cons, serEntries, h1, survivesVals, addrsVals]
    cases r1 with
    | none => exact ⟨σ1, none, rfl, a1.mono (by simp +contextual), by simp [Returned, show survives v = false from q1]⟩
    | some j =>
      obtain ⟨σ2, r2, h2, a2, q2⟩ := ih (fun w hw => hv w (by simp [hw])) segs σ1 (fun w hw => ht w (by simp [hw])) a1.all (hm.right a1.keys)
      refine ⟨σ2, r2.map ((key, j) :: ·), by simp only [h2, SRes.map], a1.trans a2, ?_⟩
      rw [q1.1, Bool.true_and]
      cases r2 with
      | none => exact q2
      | some js => exact ⟨q2.1, .cons q1.2 q2.2⟩

theorem serTot_members (env : Env) (H : Heap) (S : Nat → Prop) (vs : List Val) (hv : ∀ w, sizeOf w < 1 + sizeOf vs → SerTot env H S w) :
    ∀ ms segs σ, MembersTy env H vs ms → AllSurvive H σ → May S σ (addrsAll vs) →
      ∃ σ' js, serMembers env vs ms segs σ = .done σ' (some js) ∧ After H σ σ' (addrsAll vs) ∧ RemainsMembers env S vs ms js := by
  induction vs with
  | nil =>
    intro ms segs σ ht hσ _
    cases ms with
    | cons => simp [MembersTy] at ht
    | nil => exact ⟨σ, [], by simp [serMembers], ⟨hσ, fun a ha => .inl ha⟩, .nil⟩
  | cons v vs ih =>
    intro ms segs σ ht hσ hm
    have ih' := ih (fun w hw => hv w (by simp only [List.cons.sizeOf_spec]; omega))
    cases ms with
    | nil => simp [MembersTy] at ht
    | cons m ms =>
      rw [MembersTy_cons] at ht
      rw [serMembers_cons]
      rw [addrsAll] at hm ⊢
      cases hk : fieldOf m.kind v with
      | bad => simp [hk] at ht
      | skip =>
        obtain ⟨σ', js, h1, h2, h3⟩ := ih' ms segs σ ht.2 hσ (hm.right (fun a ha => .inl ha))
        exact ⟨σ', js, h1, h2.mono (by simp +contextual), .skip hk h3⟩
      | here w =>
        simp only [hk] at ht
        have hw : SerTot env H S w := hv w (by have := fieldOf_size hk; simp only [List.cons.sizeOf_spec]; omega)
        rw [addrs_field hk] at hm ⊢
        obtain ⟨σ1, r1, h1, a1, q1⟩ := hw m.ty (Seg.name m.name :: segs) σ ht.1 hσ hm.left
        obtain ⟨σ2, js, h2, a2, q2⟩ := ih' ms segs σ1 ht.2 a1.all (hm.right a1.keys)
        simp only [h1]
        cases r1 with
        | none => exact ⟨σ2, js, h2, a1.trans a2, .drop hk q1 q2⟩
        | some j => exact ⟨σ2, (m.name, j) :: js, by simp only [h2, SRes.map, Option.map_some], a1.trans a2, .keep hk q1.1 q1.2 q2⟩

theorem survivesVals_iff (kvs : List (Str × Val)) : survivesVals kvs = true ↔ ∀ p ∈ kvs, survives p.2 = true := by
  induction kvs with
  | nil => simp [survivesVals]
  | cons p kvs ih => obtain ⟨k, v⟩ := p; simp [survivesVals, ih]

theorem survivesVals_perm {l1 l2 : List (Str × Val)} (h : l1.Perm l2) : survivesVals l1 = survivesVals l2 := by
  rw [Bool.eq_iff_iff, survivesVals_iff, survivesVals_iff]
  exact ⟨fun hh p hp => hh p (h.mem_iff.2 hp), fun hh p hp => hh p (h.mem_iff.1 hp)⟩

theorem count_addrsVals_perm {l l' : List (Str × Val)} (hp : l.Perm l') (a : Nat) : (addrsVals l).count a = (addrsVals l').count a := by
  induction hp with
  | nil => rfl
  | cons x _ ih => simp only [addrsVals, List.count_append, ih]
  | swap x y l => simp only [addrsVals, List.count_append]; omega
  | trans _ _ ih1 ih2 => rw [ih1, ih2]

theorem Returned.imp {α β : Type} {r : Option α} {ok : Bool} {P : α → Prop} {Q : β → Prop} {f : α → β} (h : Returned r ok P) (hf : ∀ x, P x → Q (f x)) :
    Returned (r.map f) ok Q := by
  cases r with
  | none => exact h
  | some x => exact ⟨h.1, hf x h.2⟩

theorem ser_total (env : Env) (hfair : env.Fair) (H : Heap) (S : Nat → Prop) : ∀ v, SerTot env H S v := by
  apply Val.strong
  intro v ih t segs σ ht hσ hm
  unfold HasTy at ht
  split at ht
  · rename_i p k
    have key : ∀ (b : Bool), (b = true → ∃ j, serPrim env k p = .ok j) → (b = false → serPrim env k p = .fail) →
        ∃ σ' r, ser env (.prim p) (.prim k) segs σ = .done σ' r ∧ After H σ σ' (addrs (.prim p)) ∧ Returned r b (Remains env S (.prim p) (.prim k)) := by
      intro b h1 h2
      cases b with
      | true =>
        obtain ⟨j, hj⟩ := h1 rfl
        exact ⟨σ, some j, by simp only [ser, hj], ⟨hσ, fun a ha => .inl ha⟩, rfl, .prim hj⟩
      | false => exact ⟨σ, none, by simp only [ser, h2 rfl], ⟨hσ, fun a ha => .inl ha⟩, rfl⟩
    refine key _ (fun hb => serPrim_ok env p k ht (by cases p <;> exact hb)) ?_
    intro hb
    cases p with
    | flt f =>
      cases k with
      | flt t =>
        have hf : ¬ f.isFinite = true := by
          have : f.isFinite = false := hb
          simp [this]
        rw [serPrim_flt, if_neg hf]
      | _ => exact ht.elim
    | _ => simp [survives] at hb
  · rename_i vs t
    obtain ⟨σ', r, h1, h2, h3⟩ := serTot_items env H S vs (fun w hw => ih w (by have := mem_size hw; simp; omega)) _ 0 segs σ
      (HasTys_replicate env H vs t ht) hσ hm
    exact ⟨σ', r.map .arr, by simp only [ser, h1, SRes.map], h2, h3.imp fun _ => .vec⟩
  · rename_i vs n t
    obtain ⟨rfl, ht⟩ := ht
    obtain ⟨σ', r, h1, h2, h3⟩ := serTot_items env H S vs (fun w hw => ih w (by have := mem_size hw; simp; omega)) _ 0 segs σ
      (HasTys_replicate env H vs t ht) hσ hm
    exact ⟨σ', r.map .arr, by simp only [ser, h1, if_true, SRes.map], h2, h3.imp fun _ => .arr⟩
  · rename_i vs ts
    obtain ⟨σ', r, h1, h2, h3⟩ := serTot_items env H S vs (fun w hw => ih w (by have := mem_size hw; simp; omega)) _ 0 segs σ ht hσ hm
    exact ⟨σ', r.map .arr, by simp only [ser, h1, SRes.map], h2, h3.imp fun _ => .tuple⟩
  · rename_i vs t
    obtain ⟨σ', r, h1, h2, h3⟩ := serTot_set env H S t vs (fun w hw => ih w (by have := mem_size hw; simp; omega)) segs σ
      ((AllTy_iff _ _ _ _).1 ht.1) hσ hm
    exact ⟨σ', r.map .arr, by simp only [ser, h1, SRes.map], h2, h3.imp fun _ => .set⟩
  · rename_i kvs o t
    have hp := iterate_perm env hfair o segs kvs ht.2.nodup
    have hk := (ValsTy_iff _ _ _ _).1 ht.1
    obtain ⟨σ', r, h1, h2, h3⟩ := serTot_vals env H S t (iterate env o segs kvs)
      (fun w hw => ih w.2 (by have := mem_size_kv (hp.mem_iff.1 hw); simp; omega)) segs σ
      (fun w hw => hk w (hp.mem_iff.1 hw)) hσ (May.mono hm fun a => Nat.le_of_eq (count_addrsVals_perm hp a))
    refine ⟨σ', r.map .obj, ?_, h2.mono fun a ha => ?_, ?_⟩
    · simp only [ser, serVals_eq, iterate_map (g := fun p => ser env p.2 t), h1, SRes.map]
    · have := List.count_pos_iff.2 ha
      rw [count_addrsVals_perm hp] at this
      exact List.count_pos_iff.1 this
    · rw [survives, ← survivesVals_perm hp]
      refine h3.imp fun _ => .map hp fun ho => ?_
      rw [ho]
      rfl
  · rename_i kvs t
    have hk := (ValsTy_iff _ _ _ _).1 ht
    obtain ⟨σ', r, h1, h2, h3⟩ := serTot_vals env H S t kvs (fun w hw => ih w.2 (by have := mem_size_kv hw; simp; omega)) segs σ hk hσ hm
    exact ⟨σ', r.map .obj, by simp only [ser, serVals_eq, h1, SRes.map], h2, h3.imp fun _ => .dict⟩
  · rename_i i w ts
    obtain ⟨t, hi, ht⟩ := ht
    obtain ⟨σ', r, h1, h2, h3⟩ := ih w (by simp; omega) t segs σ ht hσ hm
    refine ⟨σ', r, by simp only [ser, hi, h1], h2, ?_⟩
    have := h3.imp (f := id) fun _ => Remains.alt hi
    rwa [Option.map_id, id] at this
  · rename_i vs c
    obtain ⟨σ', js, h1, h2, h3⟩ := serTot_members env H S vs (fun w hw => ih w (by simp; omega)) _ segs σ ht hσ hm
    exact ⟨σ', some (.obj js), by simp only [ser, h1, SRes.map, Option.map_some], h2, rfl, .cls h3⟩
  · rename_i w t
    obtain ⟨σ', r, h1, h2, h3⟩ := ih w (by simp) t segs σ ht hσ hm
    refine ⟨σ', r, by simp only [ser, h1], h2, ?_⟩
    have := h3.imp (f := id) fun _ => Remains.uptr
    rwa [Option.map_id, id] at this
  · rename_i a w t
    simp only [ser]
    cases hg : σ.get a with
    | some s =>
      have hma : a ∈ σ.keys := by
        obtain ⟨l1, l2, rfl, -⟩ := List.lookup_eq_some_iff.1 hg
        simp [STab.keys]
      have hS : S a := hm a (by simp only [STab.holds, if_pos hma, addrs, List.count_cons_self]; omega)
      exact ⟨σ, _, rfl, ⟨hσ, fun a ha => .inl ha⟩, by rw [survives]; exact hσ a hma _ _ ht.1, .ref hS⟩
    | none =>
      obtain ⟨σ', r, h1, h2, h3⟩ := ih w (by simp; omega) t segs σ ht.2 hσ (May.mono hm fun b => by rw [addrs, List.count_cons]; omega)
      have h2' := h2.mono (l' := addrs (.sptr a w)) (fun b hb => by rw [addrs]; exact List.mem_cons_of_mem _ hb)
      simp only [h1]
      cases r with
      | none => exact ⟨σ', none, rfl, h2', h3⟩
      | some j =>
        refine ⟨_, some j, rfl, ⟨h2.all.put ht.1 h3.1 segs, fun b hb => ?_⟩, h3.1, .full h3.2⟩
        rcases mem_keys_put hb with rfl | hb
        · exact .inr (by simp [addrs])
        · exact h2'.keys b hb
  · exact ht.elim

/-! ## Complete documents -/

theorem survives_of_finite : ∀ v, finite v = true → survives v = true := by
  apply Val.strong
  intro v ih hf
  have all : ∀ vs : List Val, (∀ w ∈ vs, sizeOf w < sizeOf v) → finiteAll vs = true → survivesAll vs = true := by
    intro vs
    induction vs with
    | nil => intro _ _; rfl
    | cons w vs ih' =>
      intro h hf
      rw [finiteAll, Bool.and_eq_true] at hf
      rw [survivesAll, Bool.and_eq_true]
      exact ⟨ih w (h w (by simp)) hf.1, ih' (fun w hw => h w (by simp [hw])) hf.2⟩
  have vals : ∀ kvs : List (Str × Val), (∀ p ∈ kvs, sizeOf p.2 < sizeOf v) → finiteVals kvs = true → survivesVals kvs = true := by
    intro kvs h hf
    rw [survivesVals_iff]
    rw [finiteVals_iff] at hf
    exact fun p hp => ih p.2 (h p hp) (hf p hp)
  cases v with
  | prim p => cases p <;> exact hf
  | seq vs => exact all vs (fun w hw => by have := mem_size hw; simp; omega) hf
  | tup vs => exact all vs (fun w hw => by have := mem_size hw; simp; omega) hf
  | set vs => exact all vs (fun w hw => by have := mem_size hw; simp; omega) hf
  | map kvs => exact vals kvs (fun p hp => by have := mem_size_kv hp; simp; omega) hf
  | dict kvs => exact vals kvs (fun p hp => by have := mem_size_kv hp; simp; omega) hf
  | alt i w => exact ih w (by simp; omega) hf
  | obj vs => rfl
  | absent => rfl
  | present w => exact ih w (by simp) hf
  | nullptr => rfl
  | uptr w => exact ih w (by simp) hf
  | sptr a w => exact ih w (by simp; omega) hf

/-- The objects in the list are finite. -/
def FiniteAt (H : Heap) (l : List Nat) : Prop := ∀ a ∈ l, ∀ t w, H a = some (t, w) → finite w = true

theorem shows_finite (env : Env) (H : Heap) : ∀ v t pos j tr seen, HasTy env H v t → Shows env v t pos j tr → Good seen tr → FiniteAt H seen →
    finite v = true ∧ FiniteAt H ((fulls tr).reverse ++ seen) := by
  apply Val.strong
  intro v ih t pos j tr seen hty h hg hs
  have items : ∀ (vs : List Val), (∀ w ∈ vs, sizeOf w < sizeOf v) → ∀ ts pos k js tr seen, HasTys env H vs ts → ShowsItems env vs ts pos k js tr →
      Good seen tr → FiniteAt H seen → finiteAll vs = true ∧ FiniteAt H ((fulls tr).reverse ++ seen) := by
    intro vs
    induction vs with
    | nil => intro _ ts pos k js tr seen _ h _ hs; cases h; exact ⟨rfl, hs⟩
    | cons w vs ih' =>
      intro hv ts pos k js tr seen hty h hg hs
      cases h with
      | cons h1 h2 =>
        rw [Good_append] at hg
        obtain ⟨h3, h4⟩ := ih w (hv w (by simp)) _ _ _ _ _ hty.1 h1 hg.1 hs
        obtain ⟨h5, h6⟩ := ih' (fun w hw => hv w (by simp [hw])) _ _ _ _ _ _ hty.2 h2 hg.2 h4
        rw [finiteAll, h3, h5, fulls_append, List.reverse_append, List.append_assoc]
        exact ⟨rfl, h6⟩
  have vals : ∀ (kvs : List (Str × Val)), (∀ p ∈ kvs, sizeOf p.2 < sizeOf v) → ∀ t pos k js tr seen, (∀ p ∈ kvs, HasTy env H p.2 t) →
      ShowsVals env kvs t pos k js tr → Good seen tr → FiniteAt H seen → finiteVals kvs = true ∧ FiniteAt H ((fulls tr).reverse ++ seen) := by
    intro kvs
    induction kvs with
    | nil => intro _ t pos k js tr seen _ h _ hs; cases h; exact ⟨rfl, hs⟩
    | cons p kvs ih' =>
      intro hv t pos k js tr seen hty h hg hs
      cases h with
      | cons h1 h2 =>
        rw [Good_append] at hg
        obtain ⟨h3, h4⟩ := ih _ (hv _ List.mem_cons_self) _ _ _ _ _ (hty _ List.mem_cons_self) h1 hg.1 hs
        obtain ⟨h5, h6⟩ := ih' (fun w hw => hv w (by simp [hw])) _ _ _ _ _ _ (fun p hp => hty p (by simp [hp])) h2 hg.2 h4
        rw [finiteVals, h3, h5, fulls_append, List.reverse_append, List.append_assoc]
        exact ⟨rfl, h6⟩
  have members : ∀ (vs : List Val), (∀ w : Val, sizeOf w < 1 + sizeOf vs → sizeOf w < sizeOf v) → ∀ ms pos k js tr seen, MembersTy env H vs ms →
      ShowsMembers env vs ms pos k js tr → Good seen tr → FiniteAt H seen → finiteAll vs = true ∧ FiniteAt H ((fulls tr).reverse ++ seen) := by
    intro vs
    induction vs with
    | nil => intro _ ms pos k js tr seen _ h _ hs; cases h; exact ⟨rfl, hs⟩
    | cons w vs ih' =>
      intro hv ms pos k js tr seen hty h hg hs
      have hv' : ∀ u : Val, sizeOf u < 1 + sizeOf vs → sizeOf u < sizeOf v := fun u hu => hv u (by simp; omega)
      cases ms with
      | nil => cases h
      | cons m ms =>
      have hty := (MembersTy_cons env H w vs m ms).1 hty
      have here : ∀ u, fieldOf m.kind w = .here u → HasTy env H u m.ty := fun u hu => by have := hty.1; rwa [hu] at this
      cases h with
      | skip h1 h2 =>
        obtain ⟨h5, h6⟩ := ih' hv' _ _ _ _ _ _ hty.2 h2 hg hs
        rw [finiteAll, h5]
        exact ⟨rfl, h6⟩
      | @engaged u _ _ _ _ _ _ _ _ _ h1 h2 h3 =>
        rw [Good_append] at hg
        obtain ⟨h4, h5⟩ := ih u (hv u (by simp; omega)) _ _ _ _ _ (here u (by rw [h1]; rfl)) h2 hg.1 hs
        obtain ⟨h6, h7⟩ := ih' hv' _ _ _ _ _ _ hty.2 h3 hg.2 h5
        rw [finiteAll, finite, h4, h6, fulls_append, List.reverse_append, List.append_assoc]
        exact ⟨rfl, h7⟩
      | plain h1 h2 h3 =>
        rw [Good_append] at hg
        have hw : fieldOf m.kind w = .here w := by cases hk : m.kind <;> first | exact absurd hk h1 | (cases w <;> rfl)
        obtain ⟨h4, h5⟩ := ih w (hv w (by simp; omega)) _ _ _ _ _ (here w hw) h2 hg.1 hs
        obtain ⟨h6, h7⟩ := ih' hv' _ _ _ _ _ _ hty.2 h3 hg.2 h5
        rw [finiteAll, h4, h6, fulls_append, List.reverse_append, List.append_assoc]
        exact ⟨rfl, h7⟩
  cases h with
  | @prim p k _ _ h =>
    refine ⟨?_, hs⟩
    cases p with
    | flt f =>
      cases k with
      | flt t =>
        rw [serPrim_flt] at h
        split at h
        · assumption
        · cases h
      | _ => exact hty.elim
    | _ => rfl
  | @vec vs t _ _ _ h => exact items vs (fun w hw => by have := mem_size hw; simp; omega) _ _ _ _ _ _ (HasTys_replicate env H vs t hty) h hg hs
  | @arr vs n t _ _ _ h =>
    have h0 : HasTys env H vs (List.replicate n t) := by rw [← hty.1]; exact HasTys_replicate env H vs t hty.2
    exact items vs (fun w hw => by have := mem_size hw; simp; omega) _ _ _ _ _ _ h0 h hg hs
  | @tuple vs ts _ _ _ h => exact items vs (fun w hw => by have := mem_size hw; simp; omega) _ _ _ _ _ _ hty h hg hs
  | @set vs t _ _ _ h => exact items vs (fun w hw => by have := mem_size hw; simp; omega) _ _ _ _ _ _ (HasTys_replicate env H vs t hty.1) h hg hs
  | @map kvs l _ t _ _ _ hp _ h =>
    have ht := (ValsTy_iff env H kvs t).1 hty.1
    obtain ⟨h1, h2⟩ := vals l (fun p hq => by have := mem_size_kv (hp.mem_iff.1 hq); simp; omega) _ _ _ _ _ _ (fun p hq => ht p (hp.mem_iff.1 hq)) h hg hs
    exact ⟨by rw [finite, ← finiteVals_perm hp]; exact h1, h2⟩
  | @dict kvs t _ _ _ h => exact vals kvs (fun p hq => by have := mem_size_kv hq; simp; omega) _ _ _ _ _ _ ((ValsTy_iff env H kvs t).1 hty) h hg hs
  | @alt i w ts t _ _ _ h1 h2 =>
    obtain ⟨t', h3, h4⟩ := hty
    rw [h1] at h3
    cases h3
    exact ih w (by simp; omega) _ _ _ _ _ h4 h2 hg hs
  | @cls vs c _ _ _ h => exact members vs (fun w hw => by simp; omega) _ _ _ _ _ _ hty h hg hs
  | @uptr w t _ _ _ h => exact ih w (by simp) _ _ _ _ _ hty h hg hs
  | @full a w t _ _ tr h =>
    rw [Good_append] at hg
    obtain ⟨h1, h2⟩ := ih w (by simp; omega) _ _ _ _ _ hty.2 h hg.1 hs
    refine ⟨h1, ?_⟩
    rw [fulls_append, List.reverse_append, List.append_assoc]
    intro b hb t' w' hw'
    rcases List.mem_cons.1 hb with rfl | hb
    · rw [hty.1] at hw'
      cases hw'
      exact h1
    · exact h2 b hb t' w' hw'
  | @ref a w t _ p => exact ⟨hs a hg.1 t w hty.1, hs⟩

end Verif.Core
