import Verif.Unshare
import Verif.Typing

/-!
# Shared pointers without sharing are written like unique pointers

If no two pointers of a value refer to the same object, no reference is written, and the table of objects has no influence.
-/

namespace Verif.Core

theorem put_other (σ : STab) (a b : Nat) (segs : List Seg) (h : b ≠ a) : (σ.put a segs).lookup b = σ.lookup b := by
  unfold STab.put
  split
  · rfl
  · have : (b == a) = false := by simp [h]
    simp only [List.lookup, this]

theorem done_of_map {α β : Type} {f : α → β} {r : SRes α} {σ : STab} {b : Option β} (h : r.map f = .done σ b) : ∃ a, r = .done σ a ∧ b = a.map f := by
  cases r with
  | ub => cases h
  | done σ' a => cases h; exact ⟨a, rfl, rfl⟩

theorem lower_replicate (n : Nat) (t : Ty) : (List.replicate n t).map Ty.lower = List.replicate n t.lower := by simp

theorem addrsVals_perm {l l' : List (Str × Val)} (h : l.Perm l') : (addrsVals l).Perm (addrsVals l') := by
  induction h with
  | nil => exact .refl _
  | cons p _ ih => exact List.Perm.append (.refl _) ih
  | swap p q l =>
    simp only [addrsVals, ← List.append_assoc]
    exact List.Perm.append List.perm_append_comm (.refl _)
  | trans _ _ h1 h2 => exact h1.trans h2

/-- No entries of the table are about objects of the value. -/
def FreeOf (σ : STab) (l : List Nat) : Prop := ∀ a ∈ l, σ.lookup a = none

/-- The table has changed for objects of the value only. -/
def OnlyAt (σ σ' : STab) (l : List Nat) : Prop := ∀ a, a ∉ l → σ'.lookup a = σ.lookup a

theorem OnlyAt.refl (σ : STab) (l : List Nat) : OnlyAt σ σ l := fun _ _ => rfl

theorem OnlyAt.append {σ σ' σ'' : STab} {l l' : List Nat} (h : OnlyAt σ σ' l) (h' : OnlyAt σ' σ'' l') : OnlyAt σ σ'' (l ++ l') := fun a ha => by
  rw [List.mem_append, not_or] at ha
  rw [h' a ha.2, h a ha.1]

theorem FreeOf.left {σ : STab} {l l' : List Nat} (h : FreeOf σ (l ++ l')) : FreeOf σ l := fun a ha => h a (List.mem_append.2 (.inl ha))

theorem FreeOf.step {σ σ' : STab} {l l' : List Nat} (h : FreeOf σ (l ++ l')) (hd : (l ++ l').Nodup) (ho : OnlyAt σ σ' l) : FreeOf σ' l' := fun a ha => by
  rw [ho a fun hb => (List.nodup_append.1 hd).2.2 a hb a ha rfl]
  exact h a (List.mem_append.2 (.inr ha))

theorem nodup_left {l l' : List Nat} (h : (l ++ l').Nodup) : l.Nodup := (List.nodup_append.1 h).1
theorem nodup_right {l l' : List Nat} (h : (l ++ l').Nodup) : l'.Nodup := (List.nodup_append.1 h).2.1

section
variable (env : Env) (H : Heap)

/-- What is to be shown for one value. -/
def SerLow (v : Val) (t : Ty) : Prop := ∀ segs σ σ', FreeOf σ (addrs v) → (addrs v).Nodup → ∀ σ1 r, ser env v t segs σ = .done σ1 r →
  ser env.lower v.lower t.lower segs σ' = .done σ' r ∧ OnlyAt σ σ1 (addrs v)

theorem serEntries_low (t : Ty) (kvs : List (Str × Val)) (h : ∀ p ∈ kvs, SerLow env p.2 t) : ∀ segs σ σ', FreeOf σ (addrsVals kvs) → (addrsVals kvs).Nodup →
    ∀ σ1 r, serEntries (kvs.map fun p => (p.1, ser env p.2 t)) segs σ = .done σ1 r →
    serEntries (kvs.map fun p => (p.1, ser env.lower p.2.lower t.lower)) segs σ' = .done σ' r ∧ OnlyAt σ σ1 (addrsVals kvs) := by
  induction kvs with
  | nil =>
    intro segs σ σ' _ _ σ1 r he
    cases he
    exact ⟨rfl, .refl _ _⟩
  | cons p kvs ih =>
    obtain ⟨k, v⟩ := p
    intro segs σ σ' hf hd σ1 r he
    simp only [List.map_cons, serEntries] at he ⊢
    cases hv : ser env v t (Seg.name k :: segs) σ with
    | ub => rw [hv] at he; cases he
    | done σ2 r2 =>
      obtain ⟨h1, h2⟩ := h (k, v) (by simp) (Seg.name k :: segs) σ σ' hf.left (nodup_left hd) σ2 r2 hv
      rw [hv] at he
      simp only [h1]
      cases r2 with
      | none =>
        cases he
        exact ⟨rfl, fun a ha => h2 a fun hb => ha (List.mem_append.2 (.inl hb))⟩
      | some j =>
        obtain ⟨r3, h3, rfl⟩ := done_of_map he
        obtain ⟨h4, h5⟩ := ih (fun p hp => h p (by simp [hp])) segs σ2 σ' (hf.step hd h2) (nodup_right hd) σ1 r3 h3
        refine ⟨?_, h2.append h5⟩
        simp only [h4]
        rfl

theorem serItems_low : ∀ (vs : List Val) (ts : List Ty), (∀ v ∈ vs, ∀ t, HasTy env H v t → SerLow env v t) → HasTys env H vs ts →
    ∀ k segs σ σ', FreeOf σ (addrsAll vs) → (addrsAll vs).Nodup → ∀ σ1 r, serItems env vs ts k segs σ = .done σ1 r →
    serItems env.lower (vs.map Val.lower) (ts.map Ty.lower) k segs σ' = .done σ' r ∧ OnlyAt σ σ1 (addrsAll vs) := by
  intro vs
  induction vs with
  | nil =>
    intro ts _ hty k segs σ σ' _ _ σ1 r he
    cases ts with
    | nil =>
      simp only [serItems] at he
      cases he
      exact ⟨by simp [serItems], .refl _ _⟩
    | cons => simp [HasTys] at hty
  | cons v vs ih =>
    intro ts h hty k segs σ σ' hf hd σ1 r he
    cases ts with
    | nil => simp [HasTys] at hty
    | cons t ts =>
      simp only [HasTys] at hty
      simp only [List.map_cons, serItems] at he ⊢
      cases hv : ser env v t (.index k :: segs) σ with
      | ub => rw [hv] at he; cases he
      | done σ2 r2 =>
        obtain ⟨h1, h2⟩ := h v (by simp) t hty.1 (.index k :: segs) σ σ' hf.left (nodup_left hd) σ2 r2 hv
        rw [hv] at he
        simp only [h1]
        cases r2 with
        | none =>
          cases he
          exact ⟨rfl, fun a ha => h2 a fun hb => ha (List.mem_append.2 (.inl hb))⟩
        | some j =>
          obtain ⟨r3, h3, rfl⟩ := done_of_map he
          obtain ⟨h4, h5⟩ := ih ts (fun p hp => h p (by simp [hp])) hty.2 (k + 1) segs σ2 σ' (hf.step hd h2) (nodup_right hd) σ1 r3 h3
          refine ⟨?_, h2.append h5⟩
          simp only [h4]
          rfl

theorem serSet_low (t : Ty) : ∀ (vs : List Val), (∀ v ∈ vs, SerLow env v t) →
    ∀ segs σ σ', FreeOf σ (addrsAll vs) → (addrsAll vs).Nodup → ∀ σ1 r, serSet env vs t segs σ = .done σ1 r →
    serSet env.lower (vs.map Val.lower) t.lower segs σ' = .done σ' r ∧ OnlyAt σ σ1 (addrsAll vs) := by
  intro vs
  induction vs with
  | nil =>
    intro _ segs σ σ' _ _ σ1 r he
    simp only [serSet] at he
    cases he
    exact ⟨by simp [serSet], .refl _ _⟩
  | cons v vs ih =>
    intro h segs σ σ' hf hd σ1 r he
    simp only [List.map_cons, serSet] at he ⊢
    cases hv : ser env v t segs σ with
    | ub => rw [hv] at he; cases he
    | done σ2 r2 =>
      obtain ⟨h1, h2⟩ := h v (by simp) segs σ σ' hf.left (nodup_left hd) σ2 r2 hv
      rw [hv] at he
      simp only [h1]
      cases r2 with
      | none =>
        cases he
        exact ⟨rfl, fun a ha => h2 a fun hb => ha (List.mem_append.2 (.inl hb))⟩
      | some j =>
        obtain ⟨r3, h3, rfl⟩ := done_of_map he
        obtain ⟨h4, h5⟩ := ih (fun p hp => h p (by simp [hp])) segs σ2 σ' (hf.step hd h2) (nodup_right hd) σ1 r3 h3
        refine ⟨?_, h2.append h5⟩
        simp only [h4]
        rfl

theorem serMembers_low : ∀ (vs : List Val) (ms : List Member), (∀ v ∈ vs, (∀ t, HasTy env H v t → SerLow env v t) ∧ ∀ w, v = .present w → ∀ t, HasTy env H w t → SerLow env w t) →
    MembersTy env H vs ms → ∀ segs σ σ', FreeOf σ (addrsAll vs) → (addrsAll vs).Nodup → ∀ σ1 r, serMembers env vs ms segs σ = .done σ1 r →
    serMembers env.lower (vs.map Val.lower) (ms.map Member.lower) segs σ' = .done σ' r ∧ OnlyAt σ σ1 (addrsAll vs) := by
  intro vs
  induction vs with
  | nil =>
    intro ms _ hty segs σ σ' _ _ σ1 r he
    cases ms with
    | nil =>
      simp only [serMembers] at he
      cases he
      exact ⟨by simp [serMembers], .refl _ _⟩
    | cons => simp [MembersTy] at hty
  | cons v vs ih =>
    intro ms h hty segs σ σ' hf hd σ1 r he
    cases ms with
    | nil => simp [MembersTy] at hty
    | cons m ms =>
      have ih := ih ms (fun p hp => h p (by simp [hp]))
      obtain ⟨name, kind, ty⟩ := m
      have step : ∀ w, addrs w = addrs v → SerLow env w ty → MembersTy env H vs ms → (match ser env w ty (Seg.name name :: segs) σ with
            | .ub => SRes.ub
            | .done σ' none => serMembers env vs ms segs σ'
            | .done σ' (some j) => (serMembers env vs ms segs σ').map ((name, j) :: ·)) = .done σ1 r →
          (match ser env.lower w.lower ty.lower (Seg.name name :: segs) σ' with
            | .ub => SRes.ub
            | .done σ' none => serMembers env.lower (vs.map Val.lower) (ms.map Member.lower) segs σ'
            | .done σ' (some j) => (serMembers env.lower (vs.map Val.lower) (ms.map Member.lower) segs σ').map ((name, j) :: ·)) = .done σ' r ∧
            OnlyAt σ σ1 (addrsAll (v :: vs)) := by
        intro w hwv hw hms he
        simp only [addrsAll] at hf hd ⊢
        rw [← hwv] at hf hd ⊢
        cases hv : ser env w ty (Seg.name name :: segs) σ with
        | ub => rw [hv] at he; cases he
        | done σ2 r2 =>
          obtain ⟨h1, h2⟩ := hw (Seg.name name :: segs) σ σ' hf.left (nodup_left hd) σ2 r2 hv
          rw [hv] at he
          simp only [h1]
          cases r2 with
          | none =>
            obtain ⟨h4, h5⟩ := ih hms segs σ2 σ' (hf.step hd h2) (nodup_right hd) σ1 r he
            exact ⟨h4, h2.append h5⟩
          | some j =>
            obtain ⟨r3, h3, rfl⟩ := done_of_map he
            obtain ⟨h4, h5⟩ := ih hms segs σ2 σ' (hf.step hd h2) (nodup_right hd) σ1 r3 h3
            refine ⟨?_, h2.append h5⟩
            simp only [h4]
            rfl
      rw [serMembers.eq_def] at he
      rw [List.map_cons, List.map_cons, serMembers.eq_def]
      rw [MembersTy.eq_def] at hty
      cases kind with
      | optional =>
        cases v with
        | absent => exact ih hty.2 segs σ σ' hf hd σ1 r he
        | present w => exact step w rfl ((h _ (by simp)).2 w rfl ty hty.1) hty.2 he
        | _ => exact hty.1.elim
      | required => exact step v rfl ((h _ (by simp)).1 ty hty.1) hty.2 he
      | default => exact step v rfl ((h _ (by simp)).1 ty hty.1) hty.2 he

theorem ser_low (hfair : env.Fair) : ∀ v t, HasTy env H v t → SerLow env v t := by
  intro v
  induction v using Val.strong with
  | _ v ih =>
    intro t hty segs σ σ' hf hd σ1 r he
    have hv : ∀ vs : List Val, sizeOf vs < sizeOf v → ∀ w ∈ vs, ∀ t, HasTy env H w t → SerLow env w t := fun vs h w hw => ih w (Nat.lt_trans (mem_size hw) h)
    have hkv : ∀ kvs : List (Str × Val), sizeOf kvs < sizeOf v → ∀ p ∈ kvs, ∀ t, HasTy env H p.2 t → SerLow env p.2 t :=
      fun kvs h p hp => ih p.2 (Nat.lt_trans (mem_size_kv hp) h)
    cases v with
    | prim p =>
      cases t with
      | prim k =>
        simp only [ser] at he
        simp only [Val.lower, Ty.lower, ser]
        have : serPrim env.lower k p = serPrim env k p := by cases k <;> cases p <;> rfl
        rw [this]
        split at he <;> cases he <;> exact ⟨rfl, .refl _ _⟩
      | _ => exact hty.elim
    | seq vs =>
      cases t with
      | vec t =>
        simp only [ser] at he
        obtain ⟨r3, h3, rfl⟩ := done_of_map he
        obtain ⟨h4, h5⟩ := serItems_low env H vs _ (hv vs (by simp +arith)) (HasTys_replicate env H vs t hty) 0 segs σ σ' hf hd σ1 r3 h3
        simp only [lower_replicate] at h4
        simp only [Val.lower, Ty.lower, ser, lowerVals_eq, List.length_map, h4]
        exact ⟨rfl, h5⟩
      | _ => exact hty.elim
    | tup vs =>
      cases t with
      | arr n t =>
        obtain ⟨rfl, hty⟩ := hty
        simp only [ser, if_true] at he
        obtain ⟨r3, h3, rfl⟩ := done_of_map he
        obtain ⟨h4, h5⟩ := serItems_low env H vs _ (hv vs (by simp +arith)) (HasTys_replicate env H vs t hty) 0 segs σ σ' hf hd σ1 r3 h3
        simp only [lower_replicate] at h4
        simp only [Val.lower, Ty.lower, ser, lowerVals_eq, List.length_map, if_true, h4]
        exact ⟨rfl, h5⟩
      | tuple ts =>
        simp only [ser] at he
        obtain ⟨r3, h3, rfl⟩ := done_of_map he
        obtain ⟨h4, h5⟩ := serItems_low env H vs ts (hv vs (by simp +arith)) hty 0 segs σ σ' hf hd σ1 r3 h3
        simp only [Val.lower, Ty.lower, ser, lowerVals_eq, lowers_map, h4]
        exact ⟨rfl, h5⟩
      | _ => exact hty.elim
    | set vs =>
      cases t with
      | set t =>
        simp only [ser] at he
        obtain ⟨r3, h3, rfl⟩ := done_of_map he
        obtain ⟨h4, h5⟩ := serSet_low env t vs (fun w hw => hv vs (by simp +arith) w hw t ((AllTy_iff env H vs t).1 hty.1 w hw)) segs σ σ' hf hd σ1 r3 h3
        simp only [Val.lower, Ty.lower, ser, lowerVals_eq, h4]
        exact ⟨rfl, h5⟩
      | _ => exact hty.elim
    | map kvs =>
      cases t with
      | map o t =>
        obtain ⟨hty, hasc⟩ := hty
        have hperm : (iterate env o segs kvs).Perm kvs := iterate_perm env hfair o segs kvs hasc.nodup
        have haddr := addrsVals_perm hperm
        simp only [ser, serVals_eq] at he
        rw [iterate_map (g := fun p => ser env p.2 t)] at he
        obtain ⟨r3, h3, rfl⟩ := done_of_map he
        obtain ⟨h4, h5⟩ := serEntries_low env t (iterate env o segs kvs) (fun p hp => hkv kvs (by simp +arith) p (hperm.mem_iff.1 hp) t
          ((ValsTy_iff env H kvs t).1 hty p (hperm.mem_iff.1 hp))) segs σ σ' (fun a ha => hf a (haddr.mem_iff.1 ha)) (haddr.nodup_iff.2 hd) σ1 r3 h3
        refine ⟨?_, fun a ha => h5 a fun hb => ha (haddr.mem_iff.1 hb)⟩
        simp only [Val.lower, Ty.lower, ser, serVals_eq, lowerEntries_eq, List.map_map, Function.comp_def]
        have : iterate env.lower o segs (kvs.map fun p => (p.1, ser env.lower p.2.lower t.lower)) =
            iterate env o segs (kvs.map fun p => (p.1, ser env.lower p.2.lower t.lower)) := rfl
        rw [this, iterate_map (g := fun p : Str × Val => ser env.lower p.2.lower t.lower), h4]
        rfl
      | _ => exact hty.elim
    | dict kvs =>
      cases t with
      | dict t =>
        simp only [ser, serVals_eq] at he
        obtain ⟨r3, h3, rfl⟩ := done_of_map he
        obtain ⟨h4, h5⟩ := serEntries_low env t kvs (fun p hp => hkv kvs (by simp +arith) p hp t ((ValsTy_iff env H kvs t).1 hty p hp)) segs σ σ' hf hd σ1 r3 h3
        simp only [Val.lower, Ty.lower, ser, serVals_eq, lowerEntries_eq, List.map_map, Function.comp_def, h4]
        exact ⟨rfl, h5⟩
      | _ => exact hty.elim
    | alt i v =>
      cases t with
      | variant ts =>
        obtain ⟨t, hi, hty⟩ := hty
        simp only [ser, hi] at he
        simp only [Val.lower, Ty.lower, ser, getElem?_lowers hi]
        exact ih v (by simp +arith) t hty segs σ σ' hf hd σ1 r he
      | _ => exact hty.elim
    | obj vs =>
      cases t with
      | cls c =>
        simp only [ser] at he
        obtain ⟨r3, h3, rfl⟩ := done_of_map he
        obtain ⟨h4, h5⟩ := serMembers_low env H vs _ (fun w hw => ⟨hv vs (by simp +arith) w hw, fun u hu => ih u (by have := mem_size hw; subst hu; simp at this ⊢; omega)⟩)
          hty segs σ σ' hf hd σ1 r3 h3
        simp only [Val.lower, Ty.lower, ser, lowerVals_eq, Env.lower_members, h4]
        exact ⟨rfl, h5⟩
      | _ => exact hty.elim
    | uptr v =>
      cases t with
      | uptr t =>
        simp only [ser] at he
        simp only [Val.lower, Ty.lower, ser]
        exact ih v (by simp +arith) t hty segs σ σ' hf hd σ1 r he
      | _ => exact hty.elim
    | sptr a v =>
      cases t with
      | sptr t =>
        have ha : σ.lookup a = none := hf a (by simp [addrs])
        simp only [ser, STab.get, ha] at he
        simp only [Val.lower, Ty.lower, ser]
        simp only [addrs] at hd
        cases hv : ser env v t segs σ with
        | ub => rw [hv] at he; cases he
        | done σ2 r2 =>
          obtain ⟨h1, h2⟩ := ih v (by simp +arith) t hty.2 segs σ σ' (fun b hb => hf b (by simp [addrs, hb])) (List.nodup_cons.1 hd).2 σ2 r2 hv
          rw [hv] at he
          rw [h1]
          cases r2 with
          | none =>
            cases he
            exact ⟨rfl, fun b hb => h2 b fun hc => hb (by simp [addrs, hc])⟩
          | some j =>
            cases he
            refine ⟨rfl, fun b hb => ?_⟩
            simp only [addrs, List.mem_cons, not_or] at hb
            rw [put_other _ _ _ _ hb.1, h2 b hb.2]
      | _ => exact hty.elim
    | _ => cases t <;> exact hty.elim

/-! ## The writer -/

theorem done_of_before {pre : List Event} {r : WRes} {σ : STab} {ok : Bool} {es : List Event} (h : r.before pre = .done σ ok es) :
    ∃ es', r = .done σ ok es' ∧ es = pre ++ es' := by
  cases r with
  | ub => cases h
  | done σ' ok' es' => cases h; exact ⟨es', rfl, rfl⟩

/-- What a container makes of the events of its elements. -/
def wrapped (o c : Event) (ok : Bool) (es : List Event) : List Event := if ok then o :: (es ++ [c]) else o :: es

theorem done_of_close {o c : Event} {r : WRes} {σ : STab} {ok : Bool} {es : List Event} (h : (r.before [o]).close c = .done σ ok es) :
    ∃ es', r = .done σ ok es' ∧ es = wrapped o c ok es' := by
  cases r with
  | ub => cases h
  | done σ' ok' es' => cases ok' <;> cases h <;> exact ⟨es', rfl, rfl⟩

theorem close_wrapped (o c : Event) (σ : STab) (ok : Bool) (es : List Event) : ((WRes.done σ ok es).before [o]).close c = .done σ ok (wrapped o c ok es) := by
  cases ok <;> rfl

/-- What is to be shown for one value. -/
def WrLow (v : Val) (t : Ty) : Prop := ∀ segs σ σ', FreeOf σ (addrs v) → (addrs v).Nodup → ∀ σ1 ok es, wr env v t segs σ = .done σ1 ok es →
  wr env.lower v.lower t.lower segs σ' = .done σ' ok es ∧ OnlyAt σ σ1 (addrs v)

theorem writeEntries_low (t : Ty) (kvs : List (Str × Val)) (h : ∀ p ∈ kvs, WrLow env p.2 t) : ∀ segs σ σ', FreeOf σ (addrsVals kvs) → (addrsVals kvs).Nodup →
    ∀ σ1 ok es, writeEntries (kvs.map fun p => (p.1, wr env p.2 t)) segs σ = .done σ1 ok es →
    writeEntries (kvs.map fun p => (p.1, wr env.lower p.2.lower t.lower)) segs σ' = .done σ' ok es ∧ OnlyAt σ σ1 (addrsVals kvs) := by
  induction kvs with
  | nil =>
    intro segs σ σ' _ _ σ1 ok es he
    cases he
    exact ⟨rfl, .refl _ _⟩
  | cons p kvs ih =>
    obtain ⟨k, v⟩ := p
    intro segs σ σ' hf hd σ1 ok es he
    simp only [List.map_cons, writeEntries] at he ⊢
    cases hv : wr env v t (Seg.name k :: segs) σ with
    | ub => rw [hv] at he; cases he
    | done σ2 ok2 es2 =>
      obtain ⟨h1, h2⟩ := h (k, v) (by simp) (Seg.name k :: segs) σ σ' hf.left (nodup_left hd) σ2 ok2 es2 hv
      rw [hv] at he
      simp only [h1]
      cases ok2 with
      | false =>
        cases he
        exact ⟨rfl, fun a ha => h2 a fun hb => ha (List.mem_append.2 (.inl hb))⟩
      | true =>
        obtain ⟨r3, h3, rfl⟩ := done_of_before he
        obtain ⟨h4, h5⟩ := ih (fun p hp => h p (by simp [hp])) segs σ2 σ' (hf.step hd h2) (nodup_right hd) σ1 ok r3 h3
        refine ⟨?_, h2.append h5⟩
        simp only [h4]
        rfl

theorem wrItems_low : ∀ (vs : List Val) (ts : List Ty), (∀ v ∈ vs, ∀ t, HasTy env H v t → WrLow env v t) → HasTys env H vs ts →
    ∀ k segs σ σ', FreeOf σ (addrsAll vs) → (addrsAll vs).Nodup → ∀ σ1 ok es, wrItems env vs ts k segs σ = .done σ1 ok es →
    wrItems env.lower (vs.map Val.lower) (ts.map Ty.lower) k segs σ' = .done σ' ok es ∧ OnlyAt σ σ1 (addrsAll vs) := by
  intro vs
  induction vs with
  | nil =>
    intro ts _ hty k segs σ σ' _ _ σ1 ok es he
    cases ts with
    | nil =>
      simp only [wrItems] at he
      cases he
      exact ⟨by simp [wrItems], .refl _ _⟩
    | cons => simp [HasTys] at hty
  | cons v vs ih =>
    intro ts h hty k segs σ σ' hf hd σ1 ok es he
    cases ts with
    | nil => simp [HasTys] at hty
    | cons t ts =>
      simp only [HasTys] at hty
      simp only [List.map_cons, wrItems] at he ⊢
      cases hv : wr env v t (.index k :: segs) σ with
      | ub => rw [hv] at he; cases he
      | done σ2 ok2 es2 =>
        obtain ⟨h1, h2⟩ := h v (by simp) t hty.1 (.index k :: segs) σ σ' hf.left (nodup_left hd) σ2 ok2 es2 hv
        rw [hv] at he
        simp only [h1]
        cases ok2 with
        | false =>
          cases he
          exact ⟨rfl, fun a ha => h2 a fun hb => ha (List.mem_append.2 (.inl hb))⟩
        | true =>
          obtain ⟨r3, h3, rfl⟩ := done_of_before he
          obtain ⟨h4, h5⟩ := ih ts (fun p hp => h p (by simp [hp])) hty.2 (k + 1) segs σ2 σ' (hf.step hd h2) (nodup_right hd) σ1 ok r3 h3
          refine ⟨?_, h2.append h5⟩
          simp only [h4]
          rfl

theorem wrSet_low (t : Ty) : ∀ (vs : List Val), (∀ v ∈ vs, WrLow env v t) →
    ∀ segs σ σ', FreeOf σ (addrsAll vs) → (addrsAll vs).Nodup → ∀ σ1 ok es, wrSet env vs t segs σ = .done σ1 ok es →
    wrSet env.lower (vs.map Val.lower) t.lower segs σ' = .done σ' ok es ∧ OnlyAt σ σ1 (addrsAll vs) := by
  intro vs
  induction vs with
  | nil =>
    intro _ segs σ σ' _ _ σ1 ok es he
    simp only [wrSet] at he
    cases he
    exact ⟨by simp [wrSet], .refl _ _⟩
  | cons v vs ih =>
    intro h segs σ σ' hf hd σ1 ok es he
    simp only [List.map_cons, wrSet] at he ⊢
    cases hv : wr env v t segs σ with
    | ub => rw [hv] at he; cases he
    | done σ2 ok2 es2 =>
      obtain ⟨h1, h2⟩ := h v (by simp) segs σ σ' hf.left (nodup_left hd) σ2 ok2 es2 hv
      rw [hv] at he
      simp only [h1]
      cases ok2 with
      | false =>
        cases he
        exact ⟨rfl, fun a ha => h2 a fun hb => ha (List.mem_append.2 (.inl hb))⟩
      | true =>
        obtain ⟨r3, h3, rfl⟩ := done_of_before he
        obtain ⟨h4, h5⟩ := ih (fun p hp => h p (by simp [hp])) segs σ2 σ' (hf.step hd h2) (nodup_right hd) σ1 ok r3 h3
        refine ⟨?_, h2.append h5⟩
        simp only [h4]
        rfl

theorem wrMembers_low : ∀ (vs : List Val) (ms : List Member), (∀ v ∈ vs, (∀ t, HasTy env H v t → WrLow env v t) ∧ ∀ w, v = .present w → ∀ t, HasTy env H w t → WrLow env w t) →
    MembersTy env H vs ms → ∀ segs σ σ', FreeOf σ (addrsAll vs) → (addrsAll vs).Nodup → ∀ σ1 ok es, wrMembers env vs ms segs σ = .done σ1 ok es →
    wrMembers env.lower (vs.map Val.lower) (ms.map Member.lower) segs σ' = .done σ' ok es ∧ OnlyAt σ σ1 (addrsAll vs) := by
  intro vs
  induction vs with
  | nil =>
    intro ms _ hty segs σ σ' _ _ σ1 ok es he
    cases ms with
    | nil =>
      simp only [wrMembers] at he
      cases he
      exact ⟨by simp [wrMembers], .refl _ _⟩
    | cons => simp [MembersTy] at hty
  | cons v vs ih =>
    intro ms h hty segs σ σ' hf hd σ1 ok es he
    cases ms with
    | nil => simp [MembersTy] at hty
    | cons m ms =>
      have ih := ih ms (fun p hp => h p (by simp [hp]))
      obtain ⟨name, kind, ty⟩ := m
      have step : ∀ w, addrs w = addrs v → WrLow env w ty → MembersTy env H vs ms → (match wr env w ty (Seg.name name :: segs) σ with
            | .ub => WRes.ub
            | .done σ' false es => .done σ' false (.key name :: es)
            | .done σ' true es => (wrMembers env vs ms segs σ').before (.key name :: es)) = .done σ1 ok es →
          (match wr env.lower w.lower ty.lower (Seg.name name :: segs) σ' with
            | .ub => WRes.ub
            | .done σ' false es => .done σ' false (.key name :: es)
            | .done σ' true es => (wrMembers env.lower (vs.map Val.lower) (ms.map Member.lower) segs σ').before (.key name :: es)) = .done σ' ok es ∧
            OnlyAt σ σ1 (addrsAll (v :: vs)) := by
        intro w hwv hw hms he
        simp only [addrsAll] at hf hd ⊢
        rw [← hwv] at hf hd ⊢
        cases hv : wr env w ty (Seg.name name :: segs) σ with
        | ub => rw [hv] at he; cases he
        | done σ2 ok2 es2 =>
          obtain ⟨h1, h2⟩ := hw (Seg.name name :: segs) σ σ' hf.left (nodup_left hd) σ2 ok2 es2 hv
          rw [hv] at he
          simp only [h1]
          cases ok2 with
          | false =>
            cases he
            exact ⟨rfl, fun a ha => h2 a fun hb => ha (List.mem_append.2 (.inl hb))⟩
          | true =>
            obtain ⟨r3, h3, rfl⟩ := done_of_before he
            obtain ⟨h4, h5⟩ := ih hms segs σ2 σ' (hf.step hd h2) (nodup_right hd) σ1 ok r3 h3
            refine ⟨?_, h2.append h5⟩
            simp only [h4]
            rfl
      rw [wrMembers.eq_def] at he
      rw [List.map_cons, List.map_cons, wrMembers.eq_def]
      rw [MembersTy.eq_def] at hty
      cases kind with
      | optional =>
        cases v with
        | absent => exact ih hty.2 segs σ σ' hf hd σ1 ok es he
        | present w => exact step w rfl ((h _ (by simp)).2 w rfl ty hty.1) hty.2 he
        | _ => exact hty.1.elim
      | required => exact step v rfl ((h _ (by simp)).1 ty hty.1) hty.2 he
      | default => exact step v rfl ((h _ (by simp)).1 ty hty.1) hty.2 he

theorem wr_low (hfair : env.Fair) : ∀ v t, HasTy env H v t → WrLow env v t := by
  intro v
  induction v using Val.strong with
  | _ v ih =>
    intro t hty segs σ σ' hf hd σ1 ok es he
    have hv : ∀ vs : List Val, sizeOf vs < sizeOf v → ∀ w ∈ vs, ∀ t, HasTy env H w t → WrLow env w t := fun vs h w hw => ih w (Nat.lt_trans (mem_size hw) h)
    have hkv : ∀ kvs : List (Str × Val), sizeOf kvs < sizeOf v → ∀ p ∈ kvs, ∀ t, HasTy env H p.2 t → WrLow env p.2 t :=
      fun kvs h p hp => ih p.2 (Nat.lt_trans (mem_size_kv hp) h)
    cases v with
    | prim p =>
      cases t with
      | prim k =>
        simp only [wr] at he
        simp only [Val.lower, Ty.lower, wr]
        have : serPrim env.lower k p = serPrim env k p := by cases k <;> cases p <;> rfl
        rw [this]
        split at he <;> cases he <;> exact ⟨rfl, .refl _ _⟩
      | _ => exact hty.elim
    | seq vs =>
      cases t with
      | vec t =>
        simp only [wr] at he
        obtain ⟨r3, h3, rfl⟩ := done_of_close he
        obtain ⟨h4, h5⟩ := wrItems_low env H vs _ (hv vs (by simp +arith)) (HasTys_replicate env H vs t hty) 0 segs σ σ' hf hd σ1 ok r3 h3
        simp only [lower_replicate] at h4
        simp only [Val.lower, Ty.lower, wr, lowerVals_eq, List.length_map, h4, close_wrapped]
        exact ⟨trivial, h5⟩
      | _ => exact hty.elim
    | tup vs =>
      cases t with
      | arr n t =>
        obtain ⟨rfl, hty⟩ := hty
        simp only [wr, if_true] at he
        obtain ⟨r3, h3, rfl⟩ := done_of_close he
        obtain ⟨h4, h5⟩ := wrItems_low env H vs _ (hv vs (by simp +arith)) (HasTys_replicate env H vs t hty) 0 segs σ σ' hf hd σ1 ok r3 h3
        simp only [lower_replicate] at h4
        simp only [Val.lower, Ty.lower, wr, lowerVals_eq, List.length_map, if_true, h4, close_wrapped]
        exact ⟨trivial, h5⟩
      | tuple ts =>
        simp only [wr] at he
        obtain ⟨r3, h3, rfl⟩ := done_of_close he
        obtain ⟨h4, h5⟩ := wrItems_low env H vs ts (hv vs (by simp +arith)) hty 0 segs σ σ' hf hd σ1 ok r3 h3
        simp only [Val.lower, Ty.lower, wr, lowerVals_eq, lowers_map, h4, close_wrapped]
        exact ⟨trivial, h5⟩
      | _ => exact hty.elim
    | set vs =>
      cases t with
      | set t =>
        simp only [wr] at he
        obtain ⟨r3, h3, rfl⟩ := done_of_close he
        obtain ⟨h4, h5⟩ := wrSet_low env t vs (fun w hw => hv vs (by simp +arith) w hw t ((AllTy_iff env H vs t).1 hty.1 w hw)) segs σ σ' hf hd σ1 ok r3 h3
        simp only [Val.lower, Ty.lower, wr, lowerVals_eq, h4, close_wrapped]
        exact ⟨trivial, h5⟩
      | _ => exact hty.elim
    | map kvs =>
      cases t with
      | map o t =>
        obtain ⟨hty, hasc⟩ := hty
        have hperm : (iterate env o segs kvs).Perm kvs := iterate_perm env hfair o segs kvs hasc.nodup
        have haddr := addrsVals_perm hperm
        simp only [wr, wrVals_eq] at he
        rw [iterate_map (g := fun p => wr env p.2 t)] at he
        obtain ⟨r3, h3, rfl⟩ := done_of_close he
        obtain ⟨h4, h5⟩ := writeEntries_low env t (iterate env o segs kvs) (fun p hp => hkv kvs (by simp +arith) p (hperm.mem_iff.1 hp) t
          ((ValsTy_iff env H kvs t).1 hty p (hperm.mem_iff.1 hp))) segs σ σ' (fun a ha => hf a (haddr.mem_iff.1 ha)) (haddr.nodup_iff.2 hd) σ1 ok r3 h3
        refine ⟨?_, fun a ha => h5 a fun hb => ha (haddr.mem_iff.1 hb)⟩
        simp only [Val.lower, Ty.lower, wr, wrVals_eq, lowerEntries_eq, List.map_map, Function.comp_def]
        have : iterate env.lower o segs (kvs.map fun p => (p.1, wr env.lower p.2.lower t.lower)) =
            iterate env o segs (kvs.map fun p => (p.1, wr env.lower p.2.lower t.lower)) := rfl
        rw [this, iterate_map (g := fun p : Str × Val => wr env.lower p.2.lower t.lower), h4, close_wrapped]
      | _ => exact hty.elim
    | dict kvs =>
      cases t with
      | dict t =>
        simp only [wr, wrVals_eq] at he
        obtain ⟨r3, h3, rfl⟩ := done_of_close he
        obtain ⟨h4, h5⟩ := writeEntries_low env t kvs (fun p hp => hkv kvs (by simp +arith) p hp t ((ValsTy_iff env H kvs t).1 hty p hp)) segs σ σ' hf hd σ1 ok r3 h3
        simp only [Val.lower, Ty.lower, wr, wrVals_eq, lowerEntries_eq, List.map_map, Function.comp_def, h4, close_wrapped]
        exact ⟨trivial, h5⟩
      | _ => exact hty.elim
    | alt i v =>
      cases t with
      | variant ts =>
        obtain ⟨t, hi, hty⟩ := hty
        simp only [wr, hi] at he
        simp only [Val.lower, Ty.lower, wr, getElem?_lowers hi]
        exact ih v (by simp +arith) t hty segs σ σ' hf hd σ1 ok es he
      | _ => exact hty.elim
    | obj vs =>
      cases t with
      | cls c =>
        simp only [wr] at he
        obtain ⟨r3, h3, rfl⟩ := done_of_close he
        obtain ⟨h4, h5⟩ := wrMembers_low env H vs _ (fun w hw => ⟨hv vs (by simp +arith) w hw, fun u hu => ih u (by have := mem_size hw; subst hu; simp at this ⊢; omega)⟩)
          hty segs σ σ' hf hd σ1 ok r3 h3
        simp only [Val.lower, Ty.lower, wr, lowerVals_eq, Env.lower_members, h4, close_wrapped]
        exact ⟨trivial, h5⟩
      | _ => exact hty.elim
    | uptr v =>
      cases t with
      | uptr t =>
        simp only [wr] at he
        simp only [Val.lower, Ty.lower, wr]
        exact ih v (by simp +arith) t hty segs σ σ' hf hd σ1 ok es he
      | _ => exact hty.elim
    | sptr a v =>
      cases t with
      | sptr t =>
        have ha : σ.lookup a = none := hf a (by simp [addrs])
        simp only [wr, STab.get, ha] at he
        simp only [Val.lower, Ty.lower, wr]
        simp only [addrs] at hd
        cases hv : wr env v t segs σ with
        | ub => rw [hv] at he; cases he
        | done σ2 ok2 es2 =>
          obtain ⟨h1, h2⟩ := ih v (by simp +arith) t hty.2 segs σ σ' (fun b hb => hf b (by simp [addrs, hb])) (List.nodup_cons.1 hd).2 σ2 ok2 es2 hv
          rw [hv] at he
          rw [h1]
          cases ok2 with
          | false =>
            cases he
            exact ⟨rfl, fun b hb => h2 b fun hc => hb (by simp [addrs, hc])⟩
          | true =>
            cases he
            refine ⟨rfl, fun b hb => ?_⟩
            simp only [addrs, List.mem_cons, not_or] at hb
            rw [put_other _ _ _ _ hb.1, h2 b hb.2]
      | _ => exact hty.elim
    | _ => cases t <;> exact hty.elim

end

/-! ## No undefined behaviour -/

/-- The serializer ends, with a document or without. -/
def SRes.Ends {α : Type} : SRes α → Prop
  | .ub => False
  | .done _ _ => True

theorem SRes.Ends.map {α β : Type} {f : α → β} {r : SRes α} (h : r.Ends) : (r.map f).Ends := by
  cases r with
  | ub => exact h.elim
  | done => trivial

theorem serPrim_defined (env : Env) (p : PVal) (k : Prim) (h : PrimTy env p k) : serPrim env k p ≠ .ub := by
  have hok : finite (.prim p) = true → serPrim env k p ≠ .ub := by
    intro hf h1
    obtain ⟨j, hj⟩ := serPrim_ok env p k h hf
    rw [hj] at h1
    cases h1
  cases p with
  | flt f =>
    cases k with
    | flt t =>
      rw [serPrim_flt]
      split <;> simp
    | _ => exact h.elim
  | _ => exact hok rfl

section
variable (env : Env) (H : Heap)

theorem serEntries_ends (t : Ty) : ∀ (kvs : List (Str × Val)), (∀ p ∈ kvs, ∀ segs σ, (ser env p.2 t segs σ).Ends) → ∀ segs σ,
    (serEntries (kvs.map fun p => (p.1, ser env p.2 t)) segs σ).Ends := by
  intro kvs
  induction kvs with
  | nil => intro _ segs σ; trivial
  | cons p kvs ih =>
    intro h segs σ
    have h1 := h p (by simp) (Seg.name p.1 :: segs) σ
    simp only [List.map_cons, serEntries]
    cases hr : ser env p.2 t (Seg.name p.1 :: segs) σ with
    | ub => rw [hr] at h1; exact h1.elim
    | done σ' r =>
      cases r with
      | none => trivial
      | some j => exact (ih (fun q hq => h q (by simp [hq])) segs σ').map

theorem serItems_ends : ∀ (vs : List Val) (ts : List Ty), (∀ v ∈ vs, ∀ t, HasTy env H v t → ∀ segs σ, (ser env v t segs σ).Ends) → HasTys env H vs ts → ∀ k segs σ,
    (serItems env vs ts k segs σ).Ends := by
  intro vs
  induction vs with
  | nil =>
    intro ts _ hty k segs σ
    cases ts with
    | nil => simp [serItems, SRes.Ends]
    | cons => simp [HasTys] at hty
  | cons v vs ih =>
    intro ts h hty k segs σ
    cases ts with
    | nil => simp [HasTys] at hty
    | cons t ts =>
      simp only [HasTys] at hty
      have h1 := h v (by simp) t hty.1 (.index k :: segs) σ
      simp only [serItems]
      cases hr : ser env v t (.index k :: segs) σ with
      | ub => rw [hr] at h1; exact h1.elim
      | done σ' r =>
        cases r with
        | none => trivial
        | some j => exact (ih ts (fun q hq => h q (by simp [hq])) hty.2 (k + 1) segs σ').map

theorem serSet_ends (t : Ty) : ∀ (vs : List Val), (∀ v ∈ vs, ∀ segs σ, (ser env v t segs σ).Ends) → ∀ segs σ, (serSet env vs t segs σ).Ends := by
  intro vs
  induction vs with
  | nil => intro _ segs σ; simp [serSet, SRes.Ends]
  | cons v vs ih =>
    intro h segs σ
    have h1 := h v (by simp) segs σ
    simp only [serSet]
    cases hr : ser env v t segs σ with
    | ub => rw [hr] at h1; exact h1.elim
    | done σ' r =>
      cases r with
      | none => trivial
      | some j => exact (ih (fun q hq => h q (by simp [hq])) segs σ').map

theorem serMembers_ends : ∀ (vs : List Val) (ms : List Member), (∀ v ∈ vs, (∀ t, HasTy env H v t → ∀ segs σ, (ser env v t segs σ).Ends) ∧
      ∀ w, v = .present w → ∀ t, HasTy env H w t → ∀ segs σ, (ser env w t segs σ).Ends) → MembersTy env H vs ms → ∀ segs σ, (serMembers env vs ms segs σ).Ends := by
  intro vs
  induction vs with
  | nil =>
    intro ms _ hty segs σ
    cases ms with
    | nil => simp [serMembers, SRes.Ends]
    | cons => simp [MembersTy] at hty
  | cons v vs ih =>
    intro ms h hty segs σ
    cases ms with
    | nil => simp [MembersTy] at hty
    | cons m ms =>
      have ih := ih ms (fun p hp => h p (by simp [hp]))
      obtain ⟨name, kind, ty⟩ := m
      have step : ∀ w, (∀ segs σ, (ser env w ty segs σ).Ends) → MembersTy env H vs ms → SRes.Ends (match ser env w ty (Seg.name name :: segs) σ with
            | .ub => SRes.ub
            | .done σ' none => serMembers env vs ms segs σ'
            | .done σ' (some j) => (serMembers env vs ms segs σ').map ((name, j) :: ·)) := by
        intro w hw hms
        have h1 := hw (Seg.name name :: segs) σ
        cases hr : ser env w ty (Seg.name name :: segs) σ with
        | ub => rw [hr] at h1; exact h1.elim
        | done σ' r =>
          cases r with
          | none => exact ih hms segs σ'
          | some j => exact (ih hms segs σ').map
      rw [serMembers.eq_def]
      rw [MembersTy.eq_def] at hty
      cases kind with
      | optional =>
        cases v with
        | absent => exact ih hty.2 segs σ
        | present w => exact step w ((h _ (by simp)).2 w rfl ty hty.1) hty.2
        | _ => exact hty.1.elim
      | required => exact step v ((h _ (by simp)).1 ty hty.1) hty.2
      | default => exact step v ((h _ (by simp)).1 ty hty.1) hty.2

theorem ser_ends : ∀ v t, HasTy env H v t → ∀ segs σ, (ser env v t segs σ).Ends := by
  intro v
  induction v using Val.strong with
  | _ v ih =>
    intro t hty segs σ
    have hv : ∀ vs : List Val, sizeOf vs < sizeOf v → ∀ w ∈ vs, ∀ t, HasTy env H w t → ∀ segs σ, (ser env w t segs σ).Ends :=
      fun vs h w hw => ih w (Nat.lt_trans (mem_size hw) h)
    have hkv : ∀ kvs : List (Str × Val), sizeOf kvs < sizeOf v → ∀ p ∈ kvs, ∀ t, HasTy env H p.2 t → ∀ segs σ, (ser env p.2 t segs σ).Ends :=
      fun kvs h p hp => ih p.2 (Nat.lt_trans (mem_size_kv hp) h)
    cases v with
    | prim p =>
      cases t with
      | prim k =>
        have h : serPrim env k p ≠ .ub := serPrim_defined env p k hty
        simp only [ser]
        split
        · exact (h (by assumption)).elim
        · trivial
        · trivial
      | _ => exact hty.elim
    | seq vs =>
      cases t with
      | vec t =>
        simp only [ser]
        exact (serItems_ends env H vs _ (hv vs (by simp +arith)) (HasTys_replicate env H vs t hty) 0 segs σ).map
      | _ => exact hty.elim
    | tup vs =>
      cases t with
      | arr n t =>
        obtain ⟨rfl, hty⟩ := hty
        simp only [ser, if_true]
        exact (serItems_ends env H vs _ (hv vs (by simp +arith)) (HasTys_replicate env H vs t hty) 0 segs σ).map
      | tuple ts =>
        simp only [ser]
        exact (serItems_ends env H vs ts (hv vs (by simp +arith)) hty 0 segs σ).map
      | _ => exact hty.elim
    | set vs =>
      cases t with
      | set t =>
        simp only [ser]
        exact (serSet_ends env t vs (fun w hw => hv vs (by simp +arith) w hw t ((AllTy_iff env H vs t).1 hty.1 w hw)) segs σ).map
      | _ => exact hty.elim
    | map kvs =>
      cases t with
      | map o t =>
        simp only [ser, serVals_eq]
        rw [iterate_map (g := fun p => ser env p.2 t)]
        exact (serEntries_ends env t _ (fun p hp => hkv kvs (by simp +arith) p (of_iterate hp) t ((ValsTy_iff env H kvs t).1 hty.1 p (of_iterate hp))) segs σ).map
      | _ => exact hty.elim
    | dict kvs =>
      cases t with
      | dict t =>
        simp only [ser, serVals_eq]
        exact (serEntries_ends env t kvs (fun p hp => hkv kvs (by simp +arith) p hp t ((ValsTy_iff env H kvs t).1 hty p hp)) segs σ).map
      | _ => exact hty.elim
    | alt i v =>
      cases t with
      | variant ts =>
        obtain ⟨t, hi, hty⟩ := hty
        simp only [ser, hi]
        exact ih v (by simp +arith) t hty segs σ
      | _ => exact hty.elim
    | obj vs =>
      cases t with
      | cls c =>
        simp only [ser]
        exact (serMembers_ends env H vs _ (fun w hw => ⟨hv vs (by simp +arith) w hw, fun u hu => ih u (by have := mem_size hw; subst hu; simp at this ⊢; omega)⟩)
          hty segs σ).map
      | _ => exact hty.elim
    | uptr v =>
      cases t with
      | uptr t =>
        simp only [ser]
        exact ih v (by simp +arith) t hty segs σ
      | _ => exact hty.elim
    | sptr a v =>
      cases t with
      | sptr t =>
        simp only [ser]
        have h1 := ih v (by simp +arith) t hty.2 segs σ
        split
        · trivial
        · split
          · rename_i h; rw [h] at h1; exact h1.elim
          · trivial
          · trivial
      | _ => exact hty.elim
    | _ => cases t <;> exact hty.elim

end

/-! ## The lowered value -/

section
variable (env : Env) (H : Heap)

mutual
theorem finite_lower : ∀ v : Val, finite v.lower = finite v
  | .prim _ => rfl
  | .seq vs => finiteAll_lower vs
  | .tup vs => finiteAll_lower vs
  | .set vs => finiteAll_lower vs
  | .map kvs => finiteVals_lower kvs
  | .dict kvs => finiteVals_lower kvs
  | .alt _ v => finite_lower v
  | .obj vs => finiteAll_lower vs
  | .absent => rfl
  | .present v => finite_lower v
  | .nullptr => rfl
  | .uptr v => finite_lower v
  | .sptr _ v => finite_lower v

theorem finiteAll_lower : ∀ vs : List Val, finiteAll (lowerVals vs) = finiteAll vs
  | [] => rfl
  | v :: vs => by simp only [lowerVals, finiteAll, finite_lower v, finiteAll_lower vs]

theorem finiteVals_lower : ∀ kvs : List (Str × Val), finiteVals (lowerEntries kvs) = finiteVals kvs
  | [] => rfl
  | (_, v) :: kvs => by simp only [lowerEntries, finiteVals, finite_lower v, finiteVals_lower kvs]
end

theorem primTy_lower (p : PVal) (k : Prim) : PrimTy env.lower p k ↔ PrimTy env p k := by cases k <;> cases p <;> exact Iff.rfl

theorem hasTys_lower : ∀ (vs : List Val) (ts : List Ty), (∀ v ∈ vs, ∀ t, HasTy env H v t → HasTy env.lower (fun _ => none) v.lower t.lower) →
    HasTys env H vs ts → HasTys env.lower (fun _ => none) (vs.map Val.lower) (ts.map Ty.lower)
  | [], [], _, _ => by simp [HasTys]
  | [], _ :: _, _, h => by simp [HasTys] at h
  | _ :: _, [], _, h => by simp [HasTys] at h
  | v :: vs, t :: ts, h, h' => by
    simp only [HasTys] at h'
    simp only [List.map_cons, HasTys]
    exact ⟨h v (by simp) t h'.1, hasTys_lower vs ts (fun w hw => h w (by simp [hw])) h'.2⟩

theorem membersTy_lower : ∀ (vs : List Val) (ms : List Member), (∀ v ∈ vs, (∀ t, HasTy env H v t → HasTy env.lower (fun _ => none) v.lower t.lower) ∧
      ∀ w, v = .present w → ∀ t, HasTy env H w t → HasTy env.lower (fun _ => none) w.lower t.lower) →
    MembersTy env H vs ms → MembersTy env.lower (fun _ => none) (vs.map Val.lower) (ms.map Member.lower)
  | [], [], _, _ => by simp [MembersTy]
  | [], _ :: _, _, h => by simp [MembersTy] at h
  | _ :: _, [], _, h => by simp [MembersTy] at h
  | v :: vs, ⟨name, kind, ty⟩ :: ms, h, h' => by
    rw [MembersTy.eq_def] at h'
    rw [List.map_cons, List.map_cons, MembersTy.eq_def]
    refine ⟨?_, membersTy_lower vs ms (fun w hw => h w (by simp [hw])) h'.2⟩
    obtain ⟨h1, h2⟩ := h v (by simp)
    cases kind with
    | optional =>
      cases v with
      | absent => trivial
      | present w => exact h2 w rfl ty h'.1
      | _ => exact h'.1.elim
    | required => exact h1 ty h'.1
    | default => exact h1 ty h'.1

theorem hasTy_lower (hb : env.Bare) : ∀ v t, HasTy env H v t → HasTy env.lower (fun _ => none) v.lower t.lower := by
  intro v
  induction v using Val.strong with
  | _ v ih =>
    intro t hty
    have hv : ∀ vs : List Val, sizeOf vs < sizeOf v → ∀ w ∈ vs, ∀ t, HasTy env H w t → HasTy env.lower (fun _ => none) w.lower t.lower :=
      fun vs h w hw => ih w (Nat.lt_trans (mem_size hw) h)
    have hkv : ∀ kvs : List (Str × Val), sizeOf kvs < sizeOf v → ∀ p ∈ kvs, ∀ t, HasTy env H p.2 t → HasTy env.lower (fun _ => none) p.2.lower t.lower :=
      fun kvs h p hp => ih p.2 (Nat.lt_trans (mem_size_kv hp) h)
    have hall : ∀ vs : List Val, sizeOf vs < sizeOf v → ∀ t, AllTy env H vs t → AllTy env.lower (fun _ => none) (vs.map Val.lower) t.lower := by
      intro vs hs t h
      rw [AllTy_iff] at h ⊢
      intro w hw
      obtain ⟨u, hu, rfl⟩ := List.mem_map.1 hw
      exact hv vs hs u hu t (h u hu)
    have hvals : ∀ kvs : List (Str × Val), sizeOf kvs < sizeOf v → ∀ t, ValsTy env H kvs t →
        ValsTy env.lower (fun _ => none) (kvs.map fun p => (p.1, p.2.lower)) t.lower := by
      intro kvs hs t h
      rw [ValsTy_iff] at h ⊢
      intro w hw
      obtain ⟨u, hu, rfl⟩ := List.mem_map.1 hw
      exact hkv kvs hs u hu t (h u hu)
    cases v with
    | prim p =>
      cases t with
      | prim k => exact (primTy_lower env p k).2 hty
      | _ => exact hty.elim
    | seq vs =>
      cases t with
      | vec t =>
        simp only [Val.lower, Ty.lower, lowerVals_eq, HasTy]
        exact hall vs (by simp +arith) t hty
      | _ => exact hty.elim
    | tup vs =>
      cases t with
      | arr n t =>
        simp only [Val.lower, Ty.lower, lowerVals_eq, HasTy, List.length_map]
        exact ⟨hty.1, hall vs (by simp +arith) t hty.2⟩
      | tuple ts =>
        simp only [Val.lower, Ty.lower, lowerVals_eq, lowers_map, HasTy]
        exact hasTys_lower env H vs ts (hv vs (by simp +arith)) hty
      | _ => exact hty.elim
    | set vs =>
      cases t with
      | set t =>
        simp only [Val.lower, Ty.lower, lowerVals_eq, HasTy]
        refine ⟨hall vs (by simp +arith) t hty.1, List.Pairwise.map _ (fun x y h => ?_) hty.2⟩
        exact (hb.less x y).trans h
      | _ => exact hty.elim
    | map kvs =>
      cases t with
      | map o t =>
        simp only [Val.lower, Ty.lower, lowerEntries_eq, HasTy]
        refine ⟨hvals kvs (by simp +arith) t hty.1, ?_⟩
        have : (kvs.map fun p => (p.1, p.2.lower)).map (·.1) = kvs.map (·.1) := by simp [Function.comp_def]
        unfold Ascending
        rw [this]
        exact hty.2
      | _ => exact hty.elim
    | dict kvs =>
      cases t with
      | dict t =>
        simp only [Val.lower, Ty.lower, lowerEntries_eq, HasTy]
        exact hvals kvs (by simp +arith) t hty
      | _ => exact hty.elim
    | alt i v =>
      cases t with
      | variant ts =>
        obtain ⟨t, hi, hty⟩ := hty
        exact ⟨t.lower, getElem?_lowers hi, ih v (by simp +arith) t hty⟩
      | _ => exact hty.elim
    | obj vs =>
      cases t with
      | cls c =>
        simp only [Val.lower, Ty.lower, lowerVals_eq, HasTy, Env.lower_members]
        exact membersTy_lower env H vs _ (fun w hw => ⟨hv vs (by simp +arith) w hw, fun u hu => ih u (by have := mem_size hw; subst hu; simp at this ⊢; omega)⟩) hty
      | _ => exact hty.elim
    | uptr v =>
      cases t with
      | uptr t => exact ih v (by simp +arith) t hty
      | _ => exact hty.elim
    | sptr a v =>
      cases t with
      | sptr t => exact ih v (by simp +arith) t hty.2
      | _ => exact hty.elim
    | _ => cases t <;> exact hty.elim

end

end Verif.Core
