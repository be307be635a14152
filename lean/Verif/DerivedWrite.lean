import Verif.Derived
import Verif.Narrow
import Verif.TextLemmas

/-!
# Writing derived classes

Either the text is the one for the class with all members, or it is no JSON text.
-/

namespace Verif.Core
open Verif.Text

theorem wrValsD_eq (env : Env) (own : Nat → Nat) (kvs : List (Str × Val)) (t : Ty) : wrValsD env own kvs t = kvs.map fun p => (p.1, wrD env own p.2 t) := by
  induction kvs with
  | nil => simp [wrValsD]
  | cons p kvs ih => obtain ⟨k, v⟩ := p; simp [wrValsD, ih]

/-! ## Types without derived classes -/

section flat
variable (env : Env) (own : Nat → Nat)

theorem wrItemsD_flat (vs : List Val) (ts : List Ty) (h : ∀ v ∈ vs, ∀ t ∈ ts, wrD env own v t = wr env v t) (k : Nat) (segs : List Seg) (σ : STab) :
    wrItemsD env own vs ts k segs σ = wrItems env vs ts k segs σ := by
  induction vs generalizing ts k σ with
  | nil => cases ts <;> simp [wrItemsD, wrItems]
  | cons v vs ih =>
    cases ts with
    | nil => simp [wrItemsD, wrItems]
    | cons t ts =>
      simp only [wrItemsD, wrItems, h v (by simp) t (by simp), ih ts fun v hv t ht => h v (by simp [hv]) t (by simp [ht])]
      rcases wr env v t (.index k :: segs) σ with _ | ⟨_, _ | _, _⟩ <;> rfl

theorem wrSetD_flat (vs : List Val) (t : Ty) (h : ∀ v ∈ vs, wrD env own v t = wr env v t) (segs : List Seg) (σ : STab) :
    wrSetD env own vs t segs σ = wrSet env vs t segs σ := by
  induction vs generalizing σ with
  | nil => simp [wrSetD, wrSet]
  | cons v vs ih =>
    simp only [wrSetD, wrSet, h v (by simp), ih fun v hv => h v (by simp [hv])]
    rcases wr env v t segs σ with _ | ⟨_, _ | _, _⟩ <;> rfl

theorem wrMembersD_flat (vs : List Val) (ms : List Member) (h : ∀ v ∈ vs, ∀ m ∈ ms, wrD env own v m.ty = wr env v m.ty ∧ ∀ w, v = .present w → wrD env own w m.ty = wr env w m.ty)
    (left : Nat) (hl : ms.length ≤ left) (segs : List Seg) (σ : STab) : wrMembersD env own left vs ms segs σ = wrMembers env vs ms segs σ := by
  induction vs generalizing left ms σ with
  | nil => cases ms <;> simp [wrMembersD, wrMembers]
  | cons v vs ih =>
    cases ms with
    | nil => simp [wrMembersD, wrMembers]
    | cons m ms =>
      simp only [List.length_cons] at hl
      have ih := fun σ => ih ms (fun v hv m hm => h v (by simp [hv]) m (by simp [hm])) (left - 1) (by omega) σ
      have h0 : decide (left = 0) = false := by simp only [decide_eq_false_iff_not]; omega
      have step : ∀ w, wrD env own w m.ty = wr env w m.ty → (match wrD env own w m.ty (Seg.name m.name :: segs) σ with
            | .ub => .ub
            | .done σ' false es => .done σ' (decide (left = 0)) (.key m.name :: es)
            | .done σ' true es => (wrMembersD env own (left - 1) vs ms segs σ').before (.key m.name :: es)) =
          (match wr env w m.ty (Seg.name m.name :: segs) σ with
            | .ub => WRes.ub
            | .done σ' false es => .done σ' false (.key m.name :: es)
            | .done σ' true es => (wrMembers env vs ms segs σ').before (.key m.name :: es)) := by
        intro w hw
        simp only [hw, h0, ih]
      rw [wrMembersD.eq_def, wrMembers.eq_def]
      have hm := h v (by simp) m (by simp)
      obtain ⟨name, kind, ty⟩ := m
      cases kind with
      | optional =>
        cases v with
        | absent => exact ih σ
        | present w => exact step w (hm.2 w rfl)
        | _ => rfl
      | required => exact step v hm.1
      | default => exact step v hm.1

theorem writeEntries_congr (F G : Val → WriteFn) (kvs : List (Str × Val)) (h : ∀ p ∈ kvs, F p.2 = G p.2) :
    (kvs.map fun p => (p.1, F p.2)) = kvs.map fun p => (p.1, G p.2) :=
  List.map_congr_left fun p hp => by rw [h p hp]

/-- For types without derived classes nothing changes. -/
theorem wrD_eq : ∀ v t, Baseless env own t → wrD env own v t = wr env v t := by
  intro v
  induction v using Val.strong with
  | _ v ih =>
    intro t hb
    have hv : ∀ vs : List Val, sizeOf vs < sizeOf v → ∀ w ∈ vs, ∀ t', Inner env t t' → wrD env own w t' = wr env w t' :=
      fun vs h w hw t' hi => ih w (Nat.lt_trans (mem_size hw) h) t' (hb.inner hi)
    have hkv : ∀ kvs : List (Str × Val), sizeOf kvs < sizeOf v → ∀ p ∈ kvs, ∀ t', Inner env t t' → wrD env own p.2 t' = wr env p.2 t' :=
      fun kvs h p hp t' hi => ih p.2 (Nat.lt_trans (mem_size_kv hp) h) t' (hb.inner hi)
    funext segs σ
    cases v with
    | prim p => cases t <;> simp only [wrD, wr] <;> rfl
    | seq vs =>
      cases t with
      | vec t =>
        simp only [wrD, wr]
        rw [wrItemsD_flat env own vs _ fun w hw t' ht => by rw [(List.mem_replicate.1 ht).2]; exact hv vs (by simp +arith) w hw _ (.vec _)]
      | _ => rfl
    | tup vs =>
      cases t with
      | arr n t =>
        simp only [wrD, wr]
        rw [wrItemsD_flat env own vs _ fun w hw t' ht => by rw [(List.mem_replicate.1 ht).2]; exact hv vs (by simp +arith) w hw _ (.arr _ _)]
      | tuple ts =>
        simp only [wrD, wr]
        rw [wrItemsD_flat env own vs _ fun w hw t' ht => hv vs (by simp +arith) w hw _ (.tuple _ _ ht)]
      | _ => rfl
    | set vs =>
      cases t with
      | set t =>
        simp only [wrD, wr]
        rw [wrSetD_flat env own vs _ fun w hw => hv vs (by simp +arith) w hw _ (.set _)]
      | _ => rfl
    | map kvs =>
      cases t with
      | map o t =>
        simp only [wrD, wr, wrVals_eq, wrValsD_eq]
        rw [writeEntries_congr (fun w => wrD env own w t) (fun w => wr env w t) _ fun p hp => hkv kvs (by simp +arith) p hp _ (.map _ _)]
      | _ => rfl
    | dict kvs =>
      cases t with
      | dict t =>
        simp only [wrD, wr, wrVals_eq, wrValsD_eq]
        rw [writeEntries_congr (fun w => wrD env own w t) (fun w => wr env w t) kvs fun p hp => ih p.2 (Nat.lt_trans (mem_size_kv hp) (by simp +arith)) t ((hb.inner (.dict _)).inner (.tuple _ _ (by simp)))]
      | _ => rfl
    | alt i v =>
      cases t with
      | variant ts =>
        simp only [wrD, wr]
        cases ht : ts[i]? with
        | none => rfl
        | some t => simp only; rw [ih v (by simp +arith) t (hb.inner (.variant _ _ (List.mem_of_getElem? ht)))]
      | _ => rfl
    | obj vs =>
      cases t with
      | cls c =>
        simp only [wrD, wr]
        rw [wrMembersD_flat env own vs _ (fun w hw m hm => ⟨hv vs (by simp +arith) w hw _ (.cls _ _ hm), fun u hu =>
          ih u (by have := mem_size hw; subst hu; simp at this ⊢; omega) _ (hb.inner (.cls _ _ hm))⟩) _ (hb c .self)]
      | _ => rfl
    | uptr v =>
      cases t with
      | uptr t => simp only [wrD, wr]; rw [ih v (by simp +arith) t (hb.inner (.uptr _))]
      | _ => rfl
    | sptr a v =>
      cases t with
      | sptr t =>
        simp only [wrD, wr]
        rw [ih v (by simp +arith) t (hb.inner (.sptr _))]
        cases σ.get a with
        | some s => rfl
        | none =>
          simp only
          rcases wr env v t segs σ with _ | ⟨_, _ | _, _⟩ <;> rfl
      | _ => rfl
    | _ => cases t <;> rfl

end flat

/-! ## Texts that are no texts of documents -/

/-- No document starts like this. -/
def Broken (es : List Event) : Prop := (∀ j r s, es ++ s ≠ events j ++ r) ∧ ∀ r s, es ++ s ≠ .endArr :: r

/-- No document starts like this and goes on with the end of an object. -/
def Torn (es : List Event) : Prop := (∀ j r s, es ++ .endObj :: s ≠ events j ++ r) ∧ ∀ r s, es ++ .endObj :: s ≠ .endArr :: r

/-- The same for the elements of an array. -/
def BrokenItems (es : List Event) : Prop := ∀ js r s, es ++ s ≠ eventsItems js ++ .endArr :: r

/-- The same for the elements of an array. -/
def TornItems (es : List Event) : Prop := ∀ js r s, es ++ .endObj :: s ≠ eventsItems js ++ .endArr :: r

/-- The same for the members of an object. -/
def BrokenMembers (es : List Event) : Prop := ∀ ms r s, es ++ .endObj :: s ≠ eventsMembers ms ++ .endObj :: r

/-- Not a success. -/
def WRes.fails (x : WRes) : Prop := ∀ σ es, x ≠ .done σ true es

/-- How writing derived classes and writing classes with all members are related: the same text, which is `good`, or failure of the latter. -/
inductive WRel (good broken torn : List Event → Prop) : WRes → WRes → Prop
  | same (σ : STab) (es : List Event) : good es → WRel good broken torn (.done σ true es) (.done σ true es)
  | broken (σ : STab) (es : List Event) (x : WRes) : broken es → x.fails → WRel good broken torn (.done σ true es) x
  | torn (σ : STab) (es : List Event) (x : WRes) : torn es → x.fails → WRel good broken torn (.done σ false es) x
  | ub (x : WRes) : x.fails → WRel good broken torn .ub x

theorem fails_ub : WRes.ub.fails := fun _ _ h => nomatch h

theorem fails_false (σ : STab) (es : List Event) : (WRes.done σ false es).fails := fun _ _ h => nomatch h

theorem fails_before {x : WRes} (h : x.fails) (pre : List Event) : (x.before pre).fails := by
  intro σ es he
  cases x with
  | ub => cases he
  | done σ' ok es' =>
    simp only [WRes.before, WRes.done.injEq] at he
    exact h σ' es' (by rw [he.2.1])

theorem fails_close {x : WRes} (h : x.fails) (e : Event) : (x.close e).fails := by
  intro σ es he
  cases x with
  | ub => cases he
  | done σ' ok es' =>
    cases ok with
    | false => cases he
    | true => exact h σ' es' rfl

theorem head_events (j : Json) : ∃ e es, events j = e :: es ∧ e ≠ .endArr ∧ e ≠ .endObj := by
  cases j <;> exact ⟨_, _, rfl, nofun, nofun⟩

/-- The relation for values. -/
abbrev VRel : WRes → WRes → Prop := WRel (fun es => ∃ j, es = events j) Broken Torn

/-- The relation for elements. -/
abbrev IRel : WRes → WRes → Prop := WRel (fun es => ∃ js, es = eventsItems js) BrokenItems TornItems

/-- The relation for members. -/
abbrev MRel : WRes → WRes → Prop := WRel (fun es => ∃ ms, es = eventsMembers ms) BrokenMembers BrokenMembers

theorem items_of_broken {es : List Event} (h : Broken es) (rest : List Event) : BrokenItems (es ++ rest) := by
  intro js r s he
  rw [List.append_assoc] at he
  cases js with
  | nil => exact h.2 _ _ he
  | cons j js => rw [eventsItems, List.append_assoc] at he; exact h.1 _ _ _ he

theorem torn_of_broken {es : List Event} (h : Broken es) (rest : List Event) : TornItems (es ++ rest) := by
  intro js r s he
  exact items_of_broken h rest js r _ he

theorem items_of_torn {es : List Event} (h : Torn es) : TornItems es := by
  intro js r s he
  cases js with
  | nil => exact h.2 _ _ he
  | cons j js => rw [eventsItems, List.append_assoc] at he; exact h.1 _ _ _ he

theorem items_after (j : Json) {es : List Event} (h : BrokenItems es) : BrokenItems (events j ++ es) := by
  intro js r s he
  rw [List.append_assoc] at he
  cases js with
  | nil =>
    obtain ⟨e, rest, h1, h2, -⟩ := head_events j
    rw [h1] at he
    exact h2 (by injection he)
  | cons j' js =>
    rw [eventsItems, List.append_assoc] at he
    exact h _ _ _ (events_cancel _ _ _ _ he).2

theorem torn_after (j : Json) {es : List Event} (h : TornItems es) : TornItems (events j ++ es) := by
  intro js r s he
  rw [List.append_assoc] at he
  cases js with
  | nil =>
    obtain ⟨e, rest, h1, h2, -⟩ := head_events j
    rw [h1] at he
    exact h2 (by injection he)
  | cons j' js =>
    rw [eventsItems, List.append_assoc] at he
    exact h _ _ _ (events_cancel _ _ _ _ he).2

/-- One element and the rest. -/
theorem IRel.cons {x' x : WRes} (h : VRel x' x) {rest' rest : STab → WRes} (hr : ∀ σ, IRel (rest' σ) (rest σ)) :
    IRel (match (generalizing := false) x' with | .ub => .ub | .done σ' false es => .done σ' false es | .done σ' true es => (rest' σ').before es)
      (match (generalizing := false) x with | .ub => .ub | .done σ' false es => .done σ' false es | .done σ' true es => (rest σ').before es) := by
  cases h with
  | same σ es hg =>
    obtain ⟨j, rfl⟩ := hg
    have := hr σ
    revert this
    simp only
    generalize rest' σ = y'
    generalize rest σ = y
    intro h
    cases h with
    | same σ es hg =>
      obtain ⟨js, rfl⟩ := hg
      exact .same _ _ ⟨j :: js, rfl⟩
    | broken σ es _ hb hf => exact .broken _ _ _ (items_after j hb) (fails_before hf _)
    | torn σ es _ hb hf => exact .torn _ _ _ (torn_after j hb) (fails_before hf _)
    | ub _ hf => exact .ub _ (fails_before hf _)
  | broken σ es _ hb hf =>
    have hx : WRes.fails (match (generalizing := false) x with | .ub => .ub | .done σ' false es => .done σ' false es | .done σ' true es => (rest σ').before es) := by
      cases x with
      | ub => exact fails_ub
      | done σ' ok es =>
        cases ok with
        | false => exact fails_false _ _
        | true => exact absurd rfl (hf _ _)
    simp only
    cases rest' σ with
    | ub => exact .ub _ hx
    | done σ' ok es' =>
      cases ok with
      | false => exact .torn _ _ _ (torn_of_broken hb _) hx
      | true => exact .broken _ _ _ (items_of_broken hb _) hx
  | torn σ es _ hb hf =>
    refine .torn _ _ _ (items_of_torn hb) ?_
    cases x with
    | ub => exact fails_ub
    | done σ' ok es =>
      cases ok with
      | false => exact fails_false _ _
      | true => exact absurd rfl (hf _ _)
  | ub _ hf =>
    refine .ub _ ?_
    cases x with
    | ub => exact fails_ub
    | done σ' ok es =>
      cases ok with
      | false => exact fails_false _ _
      | true => exact absurd rfl (hf _ _)

theorem members_of_torn (k : Str) {es : List Event} (h : Torn es) : BrokenMembers (.key k :: es) := by
  intro ms r s he
  cases ms with
  | nil => cases he
  | cons p ms =>
    obtain ⟨k', j⟩ := p
    simp only [eventsMembers, List.cons_append, List.append_assoc, List.cons.injEq] at he
    exact h.1 _ _ _ he.2

theorem members_of_broken (k : Str) {es : List Event} (h : Broken es) (rest : List Event) : BrokenMembers (.key k :: es ++ rest) := by
  intro ms r s he
  cases ms with
  | nil => cases he
  | cons p ms =>
    obtain ⟨k', j⟩ := p
    simp only [eventsMembers, List.cons_append, List.append_assoc, List.cons.injEq] at he
    exact h.1 _ _ _ he.2

theorem members_after (k : Str) (j : Json) {es : List Event} (h : BrokenMembers es) : BrokenMembers (.key k :: events j ++ es) := by
  intro ms r s he
  cases ms with
  | nil => cases he
  | cons p ms =>
    obtain ⟨k', j'⟩ := p
    simp only [eventsMembers, List.cons_append, List.append_assoc, List.cons.injEq] at he
    exact h _ _ _ (events_cancel _ _ _ _ he.2).2

/-- One member and the rest; `ok` is what remains of a failure. -/
theorem MRel.cons (k : Str) (ok : Bool) {x' x : WRes} (h : VRel x' x) {rest' rest : STab → WRes} (hr : ∀ σ, MRel (rest' σ) (rest σ)) :
    MRel (match (generalizing := false) x' with | .ub => .ub | .done σ' false es => .done σ' ok (.key k :: es) | .done σ' true es => (rest' σ').before (.key k :: es))
      (match (generalizing := false) x with | .ub => .ub | .done σ' false es => .done σ' false (.key k :: es) | .done σ' true es => (rest σ').before (.key k :: es)) := by
  have hx : x.fails → WRes.fails (match (generalizing := false) x with | .ub => .ub | .done σ' false es => .done σ' false (.key k :: es) | .done σ' true es => (rest σ').before (.key k :: es)) := by
    intro hf
    cases x with
    | ub => exact fails_ub
    | done σ' ok es =>
      cases ok with
      | false => exact fails_false _ _
      | true => exact absurd rfl (hf _ _)
  cases h with
  | same σ es hg =>
    obtain ⟨j, rfl⟩ := hg
    have := hr σ
    revert this
    simp only
    generalize rest' σ = y'
    generalize rest σ = y
    intro h
    cases h with
    | same σ es hg =>
      obtain ⟨ms, rfl⟩ := hg
      exact .same _ _ ⟨(k, j) :: ms, rfl⟩
    | broken σ es _ hb hf => exact .broken _ _ _ (members_after k j hb) (fails_before hf _)
    | torn σ es _ hb hf => exact .torn _ _ _ (members_after k j hb) (fails_before hf _)
    | ub _ hf => exact .ub _ (fails_before hf _)
  | broken σ es _ hb hf =>
    simp only
    cases rest' σ with
    | ub => exact .ub _ (hx hf)
    | done σ' ok es' =>
      cases ok with
      | false => exact .torn _ _ _ (members_of_broken k hb _) (hx hf)
      | true => exact .broken _ _ _ (members_of_broken k hb _) (hx hf)
  | torn σ es _ hb hf =>
    cases ok with
    | false => exact .torn _ _ _ (members_of_torn k hb) (hx hf)
    | true => exact .broken _ _ _ (members_of_torn k hb) (hx hf)
  | ub _ hf => exact .ub _ (hx hf)

/-- Brackets around elements. -/
theorem IRel.array {x' x : WRes} (h : IRel x' x) : VRel ((x'.before [.startArr]).close .endArr) ((x.before [.startArr]).close .endArr) := by
  cases h with
  | same σ es hg =>
    obtain ⟨js, rfl⟩ := hg
    exact .same _ _ ⟨.arr js, rfl⟩
  | broken σ es _ hb hf =>
    refine .broken _ _ _ ⟨fun j r s he => ?_, fun r s he => by cases he⟩ (fails_close (fails_before hf _) _)
    simp only [List.cons_append, List.nil_append, List.append_assoc] at he
    cases j <;> simp only [events, List.cons_append, List.nil_append, List.cons.injEq, List.append_assoc, reduceCtorEq, false_and] at he
    exact hb _ _ _ he.2
  | torn σ es _ hb hf =>
    refine .torn _ _ _ ⟨fun j r s he => ?_, fun r s he => by cases he⟩ (fails_close (fails_before hf _) _)
    simp only [List.cons_append, List.nil_append, List.append_assoc] at he
    cases j <;> simp only [events, List.cons_append, List.nil_append, List.cons.injEq, List.append_assoc, reduceCtorEq, false_and] at he
    exact hb _ _ _ he.2
  | ub _ hf => exact .ub _ (fails_close (fails_before hf _) _)

/-- Braces around members. -/
theorem MRel.object {x' x : WRes} (h : MRel x' x) : VRel ((x'.before [.startObj]).close .endObj) ((x.before [.startObj]).close .endObj) := by
  cases h with
  | same σ es hg =>
    obtain ⟨ms, rfl⟩ := hg
    exact .same _ _ ⟨.obj ms, rfl⟩
  | broken σ es _ hb hf =>
    refine .broken _ _ _ ⟨fun j r s he => ?_, fun r s he => by cases he⟩ (fails_close (fails_before hf _) _)
    simp only [List.cons_append, List.nil_append, List.append_assoc] at he
    cases j <;> simp only [events, List.cons_append, List.nil_append, List.cons.injEq, List.append_assoc, reduceCtorEq, false_and] at he
    exact hb _ _ _ he.2
  | torn σ es _ hb hf =>
    refine .torn _ _ _ ⟨fun j r s he => ?_, fun r s he => by cases he⟩ (fails_close (fails_before hf _) _)
    simp only [List.cons_append, List.nil_append, List.append_assoc] at he
    cases j <;> simp only [events, List.cons_append, List.nil_append, List.cons.injEq, List.append_assoc, reduceCtorEq, false_and] at he
    exact hb _ _ _ he.2
  | ub _ hf => exact .ub _ (fails_close (fails_before hf _) _)

section
variable (env : Env) (own : Nat → Nat)

/-- What is to be shown for one value. -/
def WriteRel (v : Val) : Prop := ∀ t segs σ, VRel (wrD env own v t segs σ) (wr env v t segs σ)

theorem wrItemsD_rel (vs : List Val) (h : ∀ v ∈ vs, WriteRel env own v) (ts : List Ty) (k : Nat) (segs : List Seg) (σ : STab) :
    IRel (wrItemsD env own vs ts k segs σ) (wrItems env vs ts k segs σ) := by
  induction vs generalizing ts k σ with
  | nil =>
    cases ts with
    | nil => simp only [wrItemsD, wrItems]; exact .same _ _ ⟨[], rfl⟩
    | cons => simp only [wrItemsD, wrItems]; exact .ub _ fails_ub
  | cons v vs ih =>
    cases ts with
    | nil => simp only [wrItemsD, wrItems]; exact .ub _ fails_ub
    | cons t ts =>
      simp only [wrItemsD, wrItems]
      exact IRel.cons (h v (by simp) t _ σ) fun σ => ih (fun v hv => h v (by simp [hv])) ts (k + 1) σ

theorem wrSetD_rel (vs : List Val) (h : ∀ v ∈ vs, WriteRel env own v) (t : Ty) (segs : List Seg) (σ : STab) :
    IRel (wrSetD env own vs t segs σ) (wrSet env vs t segs σ) := by
  induction vs generalizing σ with
  | nil => simp only [wrSetD, wrSet]; exact .same _ _ ⟨[], rfl⟩
  | cons v vs ih =>
    simp only [wrSetD, wrSet]
    exact IRel.cons (h v (by simp) t _ σ) fun σ => ih (fun v hv => h v (by simp [hv])) σ

theorem writeEntriesD_rel (t : Ty) (kvs : List (Str × Val)) (h : ∀ p ∈ kvs, WriteRel env own p.2) (segs : List Seg) (σ : STab) :
    MRel (writeEntries (kvs.map fun p => (p.1, wrD env own p.2 t)) segs σ) (writeEntries (kvs.map fun p => (p.1, wr env p.2 t)) segs σ) := by
  induction kvs generalizing σ with
  | nil => exact .same _ _ ⟨[], rfl⟩
  | cons p kvs ih =>
    obtain ⟨k, v⟩ := p
    simp only [List.map_cons, writeEntries]
    exact MRel.cons k false (h (k, v) (by simp) t _ σ) fun σ => ih (fun v hv => h v (by simp [hv])) σ

theorem wrMembersD_rel (vs : List Val) (h : ∀ v ∈ vs, WriteRel env own v ∧ ∀ w, v = .present w → WriteRel env own w) (ms : List Member) (left : Nat) (segs : List Seg)
    (σ : STab) : MRel (wrMembersD env own left vs ms segs σ) (wrMembers env vs ms segs σ) := by
  induction vs generalizing left ms σ with
  | nil =>
    cases ms with
    | nil => simp only [wrMembersD, wrMembers]; exact .same _ _ ⟨[], rfl⟩
    | cons => simp only [wrMembersD, wrMembers]; exact .ub _ fails_ub
  | cons v vs ih =>
    cases ms with
    | nil => simp only [wrMembersD, wrMembers]; exact .ub _ fails_ub
    | cons m ms =>
      have ih := fun σ => ih (fun v hv => h v (by simp [hv])) ms (left - 1) σ
      rw [wrMembersD.eq_def, wrMembers.eq_def]
      obtain ⟨name, kind, ty⟩ := m
      cases kind with
      | optional =>
        cases v with
        | absent => exact ih σ
        | present w => exact MRel.cons name (decide (left = 0)) ((h _ (by simp)).2 w rfl ty _ σ) ih
        | _ => exact .ub _ fails_ub
      | required => exact MRel.cons name (decide (left = 0)) ((h _ (by simp)).1 ty _ σ) ih
      | default => exact MRel.cons name (decide (left = 0)) ((h _ (by simp)).1 ty _ σ) ih

theorem torn_nil : Torn [] := by
  refine ⟨fun j r s he => ?_, fun r s he => by cases he⟩
  obtain ⟨e, es, h1, -, h2⟩ := head_events j
  rw [h1] at he
  exact h2 (by injection he with h; exact h.symm)

/-- Writing derived classes makes the text for classes with all members, or no JSON text, or fails. -/
theorem wrD_rel : ∀ v, WriteRel env own v := by
  intro v
  induction v using Val.strong with
  | _ v ih =>
    intro t segs σ
    have hv : ∀ vs : List Val, sizeOf vs < sizeOf v → ∀ w ∈ vs, WriteRel env own w := fun vs h w hw => ih w (Nat.lt_trans (mem_size hw) h)
    have hkv : ∀ kvs : List (Str × Val), sizeOf kvs < sizeOf v → ∀ p ∈ kvs, WriteRel env own p.2 := fun kvs h p hp => ih p.2 (Nat.lt_trans (mem_size_kv hp) h)
    cases v with
    | prim p =>
      cases t with
      | prim k =>
        simp only [wrD, wr]
        cases serPrim env k p with
        | ub => exact .ub _ fails_ub
        | fail => exact .torn _ _ _ torn_nil (fails_false _ _)
        | ok j => exact .same _ _ ⟨j, rfl⟩
      | _ => exact .ub _ fails_ub
    | seq vs =>
      cases t with
      | vec t => simp only [wrD, wr]; exact (wrItemsD_rel env own vs (hv vs (by simp +arith)) _ _ _ _).array
      | _ => exact .ub _ fails_ub
    | tup vs =>
      cases t with
      | arr n t =>
        simp only [wrD, wr]
        split
        · exact (wrItemsD_rel env own vs (hv vs (by simp +arith)) _ _ _ _).array
        · exact .ub _ fails_ub
      | tuple ts => simp only [wrD, wr]; exact (wrItemsD_rel env own vs (hv vs (by simp +arith)) _ _ _ _).array
      | _ => exact .ub _ fails_ub
    | set vs =>
      cases t with
      | set t => simp only [wrD, wr]; exact (wrSetD_rel env own vs (hv vs (by simp +arith)) _ _ _).array
      | _ => exact .ub _ fails_ub
    | map kvs =>
      cases t with
      | map o t =>
        simp only [wrD, wr, wrVals_eq, wrValsD_eq, iterate_map (g := fun p => wr env p.2 t), iterate_map (g := fun p => wrD env own p.2 t)]
        exact (writeEntriesD_rel env own t _ (fun p hp => hkv kvs (by simp +arith) p (of_iterate hp)) _ _).object
      | _ => exact .ub _ fails_ub
    | dict kvs =>
      cases t with
      | dict t =>
        simp only [wrD, wr, wrVals_eq, wrValsD_eq]
        exact (writeEntriesD_rel env own t _ (hkv kvs (by simp +arith)) _ _).object
      | _ => exact .ub _ fails_ub
    | alt i v =>
      cases t with
      | variant ts =>
        simp only [wrD, wr]
        cases ts[i]? with
        | none => exact .ub _ fails_ub
        | some t => exact ih v (by simp +arith) t segs σ
      | _ => exact .ub _ fails_ub
    | obj vs =>
      cases t with
      | cls c =>
        simp only [wrD, wr]
        exact (wrMembersD_rel env own vs (fun w hw => ⟨hv vs (by simp +arith) w hw, fun u hu => ih u (by have := mem_size hw; subst hu; simp at this ⊢; omega)⟩) _ _ _ _).object
      | _ => exact .ub _ fails_ub
    | uptr v =>
      cases t with
      | uptr t => simp only [wrD, wr]; exact ih v (by simp +arith) t segs σ
      | _ => exact .ub _ fails_ub
    | sptr a v =>
      cases t with
      | sptr t =>
        simp only [wrD, wr]
        cases σ.get a with
        | some s => exact .same _ _ ⟨.obj [(lit "$ref", .str (pathStr s))], rfl⟩
        | none =>
          have h := ih v (by simp +arith) t segs σ
          revert h
          simp only
          generalize wrD env own v t segs σ = x'
          generalize wr env v t segs σ = x
          intro h
          have hx : x.fails → WRes.fails (match (generalizing := false) x with | .ub => .ub | .done σ' false es => .done σ' false es | .done σ' true es => .done (σ'.put a segs) true es) := by
            intro hf
            cases x with
            | ub => exact fails_ub
            | done σ' ok es =>
              cases ok with
              | false => exact fails_false _ _
              | true => exact absurd rfl (hf _ _)
          cases h with
          | same _ _ hg => exact .same _ _ hg
          | broken _ _ _ hb hf => exact .broken _ _ _ hb (hx hf)
          | torn _ _ _ hb hf => exact .torn _ _ _ hb (hx hf)
          | ub _ hf => exact .ub _ (hx hf)
      | _ => exact .ub _ fails_ub
    | _ => cases t <;> exact .ub _ fails_ub

end

end Verif.Core
