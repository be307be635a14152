import Verif.Replace
import Verif.RoundTrip
import Verif.ConveysTyped

/-!
# Values with another content for a shared object

What `Val.refill` keeps: the type, finiteness, the addresses, and that paths can express every place.
-/

namespace Verif.Core

/-- The objects, when the object at the address `a` has the content `w`. -/
def Heap.refill (a : Nat) (w : Val) (H : Heap) : Heap := fun b => (H b).map fun p => (p.1, if b = a then w else Val.refill a w p.2)

mutual
theorem refill_noaddr (a : Nat) (w : Val) : ∀ v : Val, addrs v = [] → Val.refill a w v = v
  | .prim _, _ => rfl
  | .seq vs, h => by rw [Val.refill, refillAll_noaddr a w vs h]
  | .tup vs, h => by rw [Val.refill, refillAll_noaddr a w vs h]
  | .set vs, h => by rw [Val.refill, refillAll_noaddr a w vs h]
  | .map kvs, h => by rw [Val.refill, refillVals_noaddr a w kvs h]
  | .dict kvs, h => by rw [Val.refill, refillVals_noaddr a w kvs h]
  | .alt i v, h => by rw [Val.refill, refill_noaddr a w v h]
  | .obj vs, h => by rw [Val.refill, refillAll_noaddr a w vs h]
  | .absent, _ => rfl
  | .present v, h => by rw [Val.refill, refill_noaddr a w v h]
  | .nullptr, _ => rfl
  | .uptr v, h => by rw [Val.refill, refill_noaddr a w v h]
  | .sptr b v, h => by simp [addrs] at h

theorem refillAll_noaddr (a : Nat) (w : Val) : ∀ vs : List Val, addrsAll vs = [] → refillAll a w vs = vs
  | [], _ => rfl
  | v :: vs, h => by
      simp only [addrsAll, List.append_eq_nil_iff] at h
      rw [refillAll, refill_noaddr a w v h.1, refillAll_noaddr a w vs h.2]

theorem refillVals_noaddr (a : Nat) (w : Val) : ∀ kvs : List (Str × Val), addrsVals kvs = [] → refillVals a w kvs = kvs
  | [], _ => rfl
  | (k, v) :: kvs, h => by
      simp only [addrsVals, List.append_eq_nil_iff] at h
      rw [refillVals, refill_noaddr a w v h.1, refillVals_noaddr a w kvs h.2]
end

mutual
theorem finite_refill (a : Nat) (w : Val) (hw : finite w = true) : ∀ v : Val, finite v = true → finite (Val.refill a w v) = true
  | .prim _, h => h
  | .seq vs, h => finiteAll_refill a w hw vs h
  | .tup vs, h => finiteAll_refill a w hw vs h
  | .set vs, h => finiteAll_refill a w hw vs h
  | .map kvs, h => finiteVals_refill a w hw kvs h
  | .dict kvs, h => finiteVals_refill a w hw kvs h
  | .alt _ v, h => finite_refill a w hw v h
  | .obj vs, h => finiteAll_refill a w hw vs h
  | .absent, _ => rfl
  | .present v, h => finite_refill a w hw v h
  | .nullptr, _ => rfl
  | .uptr v, h => finite_refill a w hw v h
  | .sptr b v, h => by
      rw [Val.refill, finite]
      split
      · exact hw
      · exact finite_refill a w hw v h

theorem finiteAll_refill (a : Nat) (w : Val) (hw : finite w = true) : ∀ vs : List Val, finiteAll vs = true → finiteAll (refillAll a w vs) = true
  | [], _ => rfl
  | v :: vs, h => by
      simp only [finiteAll, Bool.and_eq_true] at h
      simp only [refillAll, finiteAll, Bool.and_eq_true]
      exact ⟨finite_refill a w hw v h.1, finiteAll_refill a w hw vs h.2⟩

theorem finiteVals_refill (a : Nat) (w : Val) (hw : finite w = true) :
    ∀ kvs : List (Str × Val), finiteVals kvs = true → finiteVals (refillVals a w kvs) = true
  | [], _ => rfl
  | (k, v) :: kvs, h => by
      simp only [finiteVals, Bool.and_eq_true] at h
      simp only [refillVals, finiteVals, Bool.and_eq_true]
      exact ⟨finite_refill a w hw v h.1, finiteVals_refill a w hw kvs h.2⟩
end

theorem refillAll_length (a : Nat) (w : Val) (vs : List Val) : (refillAll a w vs).length = vs.length := by
  rw [refillAll_eq, List.length_map]

theorem refillVals_keys (a : Nat) (w : Val) (kvs : List (Str × Val)) : (refillVals a w kvs).map (·.1) = kvs.map (·.1) := by
  rw [refillVals_eq, List.map_map]; rfl

mutual
theorem pathSafe_refill (a : Nat) (w : Val) (hw : PathSafe w) : ∀ v : Val, PathSafe v → PathSafe (Val.refill a w v)
  | .prim _, h => h
  | .seq vs, h => ⟨by rw [refillAll_length]; exact h.1, pathSafeAll_refill a w hw vs h.2⟩
  | .tup vs, h => ⟨by rw [refillAll_length]; exact h.1, pathSafeAll_refill a w hw vs h.2⟩
  | .set vs, h => by
      rw [PathSafe] at h
      rw [Val.refill, refillAll_noaddr a w vs h]
      exact h
  | .map kvs, h => pathSafeVals_refill a w hw kvs h
  | .dict kvs, h => ⟨pathSafeVals_refill a w hw kvs h.1, by rw [refillVals_keys]; exact h.2⟩
  | .alt _ v, h => pathSafe_refill a w hw v h
  | .obj vs, h => pathSafeAll_refill a w hw vs h
  | .absent, _ => trivial
  | .present v, h => pathSafe_refill a w hw v h
  | .nullptr, _ => trivial
  | .uptr v, h => pathSafe_refill a w hw v h
  | .sptr b v, h => by
      rw [Val.refill, PathSafe]
      split
      · exact hw
      · exact pathSafe_refill a w hw v h

theorem pathSafeAll_refill (a : Nat) (w : Val) (hw : PathSafe w) : ∀ vs : List Val, PathSafeAll vs → PathSafeAll (refillAll a w vs)
  | [], _ => trivial
  | v :: vs, h => ⟨pathSafe_refill a w hw v h.1, pathSafeAll_refill a w hw vs h.2⟩

theorem pathSafeVals_refill (a : Nat) (w : Val) (hw : PathSafe w) : ∀ kvs : List (Str × Val), PathSafeVals kvs → PathSafeVals (refillVals a w kvs)
  | [], _ => trivial
  | (_, v) :: kvs, h => ⟨h.1, pathSafe_refill a w hw v h.2.1, pathSafeVals_refill a w hw kvs h.2.2⟩
end

theorem ascending_refill (a : Nat) (w : Val) (kvs : List (Str × Val)) (h : Ascending kvs) : Ascending (refillVals a w kvs) := by
  unfold Ascending at h ⊢
  rw [refillVals_keys]
  exact h

/-- The place of an object can be expressed, or there are none. -/
def Locatable (v : Val) : Prop := PathSafe v ∨ addrs v = []

theorem locatable_all {vs : List Val} (h : PathSafeAll vs ∨ addrsAll vs = []) : ∀ u ∈ vs, Locatable u := by
  intro u hu
  rcases h with h | h
  · exact .inl ((PathSafeAll_iff vs).1 h u hu)
  · refine .inr (List.eq_nil_iff_forall_not_mem.2 fun b hb => ?_)
    have := (mem_addrsAll b vs).2 ⟨u, hu, hb⟩
    rw [h] at this; simp at this

theorem locatable_vals {kvs : List (Str × Val)} (h : PathSafeVals kvs ∨ addrsVals kvs = []) : ∀ p ∈ kvs, Locatable p.2 := by
  intro p hp
  rcases h with h | h
  · exact .inl ((PathSafeVals_iff kvs).1 h p hp).2
  · refine .inr (List.eq_nil_iff_forall_not_mem.2 fun b hb => ?_)
    have := (mem_addrsVals b kvs).2 ⟨p, hp, hb⟩
    rw [h] at this; simp at this

theorem addrsAll_refill {a : Nat} {w : Val} {vs : List Val} (h : ∀ u ∈ vs, addrs (Val.refill a w u) = addrs u) : addrsAll (refillAll a w vs) = addrsAll vs := by
  induction vs with
  | nil => rfl
  | cons u vs ih => simp only [refillAll, addrsAll, h u (by simp), ih fun x hx => h x (by simp [hx])]

theorem addrsVals_refill {a : Nat} {w : Val} {kvs : List (Str × Val)} (h : ∀ p ∈ kvs, addrs (Val.refill a w p.2) = addrs p.2) :
    addrsVals (refillVals a w kvs) = addrsVals kvs := by
  induction kvs with
  | nil => rfl
  | cons p kvs ih =>
    obtain ⟨k, u⟩ := p
    simp only [refillVals, addrsVals, h (k, u) (by simp), ih fun x hx => h x (by simp [hx])]

/-- The value with the new content has its type, in the heap with the new content, and it has the same addresses. -/
theorem refill_typed {env : Env} {H : Heap} {a : Nat} {t0 : Ty} {va w : Val} (hH : H a = some (t0, va)) (hva : addrs va = [])
    (hw : HasTy env (fun _ => none) w t0) :
    ∀ (v : Val) (t : Ty), Locatable v → HasTy env H v t → HasTy env (H.refill a w) (Val.refill a w v) t ∧ addrs (Val.refill a w v) = addrs v := by
  intro v
  induction v using Val.strong with
  | h v ih =>
    intro t hs ht
    have hall : ∀ (vs : List Val) (t : Ty), (∀ u ∈ vs, sizeOf u < sizeOf v) → (∀ u ∈ vs, Locatable u) → AllTy env H vs t →
        AllTy env (H.refill a w) (refillAll a w vs) t ∧ addrsAll (refillAll a w vs) = addrsAll vs := by
      intro vs t hlt hs ht
      rw [AllTy_iff] at ht
      refine ⟨?_, addrsAll_refill fun u hu => (ih u (hlt u hu) t (hs u hu) (ht u hu)).2⟩
      rw [AllTy_iff, refillAll_eq]
      intro u hu
      obtain ⟨x, hx, rfl⟩ := List.mem_map.1 hu
      exact (ih x (hlt x hx) t (hs x hx) (ht x hx)).1
    have heach : ∀ (vs : List Val) (ts : List Ty), (∀ u ∈ vs, sizeOf u < sizeOf v) → (∀ u ∈ vs, Locatable u) → HasTys env H vs ts →
        HasTys env (H.refill a w) (refillAll a w vs) ts ∧ addrsAll (refillAll a w vs) = addrsAll vs := by
      intro vs
      induction vs with
      | nil => intro ts _ _ ht; cases ts <;> exact ⟨ht, rfl⟩
      | cons u vs ihs =>
        intro ts hlt hs ht
        cases ts with
        | nil => exact ht.elim
        | cons t ts =>
          have h1 := ih u (hlt u (by simp)) t (hs u (by simp)) ht.1
          have h2 := ihs ts (fun u hu => hlt u (by simp [hu])) (fun u hu => hs u (by simp [hu])) ht.2
          exact ⟨⟨h1.1, h2.1⟩, by simp only [refillAll, addrsAll, h1.2, h2.2]⟩
    have hmem : ∀ (vs : List Val) (ms : List Member), (∀ u ∈ vs, sizeOf u < sizeOf v) → (∀ u ∈ vs, Locatable u) → MembersTy env H vs ms →
        MembersTy env (H.refill a w) (refillAll a w vs) ms ∧ addrsAll (refillAll a w vs) = addrsAll vs := by
      intro vs
      induction vs with
      | nil => intro ms _ _ ht; cases ms <;> simp [MembersTy, refillAll] at ht ⊢
      | cons u vs ihs =>
        intro ms hlt hs ht
        cases ms with
        | nil => simp [MembersTy] at ht
        | cons m ms =>
          rw [MembersTy.eq_def] at ht
          have h2 := ihs ms (fun u hu => hlt u (by simp [hu])) (fun u hu => hs u (by simp [hu])) ht.2
          rw [refillAll, MembersTy.eq_def, addrsAll, addrsAll, h2.2]
          suffices h : _ ∧ addrs (Val.refill a w u) = addrs u from ⟨⟨h.1, h2.1⟩, by rw [h.2]⟩
          have ht1 := ht.1
          have hu := hlt u (by simp)
          have hs1 := hs u (by simp)
          clear ht hlt ihs hs h2
          cases hk : m.kind with
          | optional =>
            rw [hk] at ht1
            cases u <;> first | exact ht1.elim | skip
            case absent => exact ⟨trivial, rfl⟩
            case present x => exact ih x (by simp at hu; omega) m.ty hs1 ht1
          | _ => rw [hk] at ht1; exact ih u hu m.ty hs1 ht1
    cases v with
    | prim p => cases t <;> first | exact ht.elim | exact ⟨ht, rfl⟩
    | seq vs =>
      cases t <;> first | exact ht.elim | skip
      exact hall vs _ (fun u hu => by have := mem_size hu; simp; omega) (locatable_all (hs.imp_left (·.2))) ht
    | tup vs =>
      cases t <;> first | exact ht.elim | skip
      · have h := hall vs _ (fun u hu => by have := mem_size hu; simp; omega) (locatable_all (hs.imp_left (·.2))) ht.2
        exact ⟨⟨by rw [refillAll_length]; exact ht.1, h.1⟩, h.2⟩
      · exact heach vs _ (fun u hu => by have := mem_size hu; simp; omega) (locatable_all (hs.imp_left (·.2))) ht
    | set vs =>
      cases t <;> first | exact ht.elim | skip
      have hno : addrsAll vs = [] := hs.elim id id
      have h := hall vs _ (fun u hu => by have := mem_size hu; simp; omega) (locatable_all (.inr hno)) ht.1
      rw [refillAll_noaddr a w vs hno] at h
      rw [Val.refill, refillAll_noaddr a w vs hno]
      exact ⟨⟨h.1, ht.2⟩, rfl⟩
    | map kvs =>
      cases t <;> first | exact ht.elim | skip
      have h := fun q hq => ih (Prod.snd q) (by have := mem_size_kv (kvs := kvs) hq; simp; omega) _ (locatable_vals hs q hq) ((ValsTy_iff ..).1 ht.1 q hq)
      refine ⟨⟨(ValsTy_iff ..).2 fun p hp => ?_, ascending_refill a w kvs ht.2⟩, addrsVals_refill fun q hq => (h q hq).2⟩
      rw [refillVals_eq] at hp
      obtain ⟨q, hq, rfl⟩ := List.mem_map.1 hp
      exact (h q hq).1
    | dict kvs =>
      cases t <;> first | exact ht.elim | skip
      have h := fun q hq => ih (Prod.snd q) (by have := mem_size_kv (kvs := kvs) hq; simp; omega) _ (locatable_vals (hs.imp_left (·.1)) q hq) ((ValsTy_iff ..).1 ht q hq)
      refine ⟨(ValsTy_iff ..).2 fun p hp => ?_, addrsVals_refill fun q hq => (h q hq).2⟩
      rw [refillVals_eq] at hp
      obtain ⟨q, hq, rfl⟩ := List.mem_map.1 hp
      exact (h q hq).1
    | alt i u =>
      cases t <;> first | exact ht.elim | skip
      obtain ⟨t, h1, h2⟩ := ht
      have h := ih u (by simp) t hs h2
      exact ⟨⟨t, h1, h.1⟩, h.2⟩
    | obj vs =>
      cases t <;> first | exact ht.elim | skip
      exact hmem vs _ (fun u hu => by have := mem_size hu; simp; omega) (locatable_all hs) ht
    | uptr u =>
      cases t <;> first | exact ht.elim | skip
      exact ih u (by simp) _ hs ht
    | sptr b u =>
      cases t <;> first | exact ht.elim | skip
      obtain ⟨h1, h2⟩ := ht
      rw [Val.refill, addrs, addrs]
      by_cases hb : b = a
      · subst hb
        rw [hH] at h1
        cases h1
        rw [if_pos rfl, typed_noaddr env w _ hw, hva]
        exact ⟨⟨by simp [Heap.refill, hH], HasTy.mono (fun _ _ h => by cases h) w _ hw⟩, rfl⟩
      · rw [if_neg hb]
        have h := ih u (by simp) _ (hs.imp id fun h => by simp [addrs] at h) h2
        exact ⟨⟨by simp [Heap.refill, h1, hb], h.1⟩, by rw [h.2]⟩
    | absent => cases t <;> exact ht.elim
    | present u => cases t <;> exact ht.elim
    | nullptr => cases t <;> exact ht.elim

mutual
theorem rename_refill (ρ : Nat → Nat) (a : Nat) (w : Val) (hw : addrs w = []) :
    ∀ v : Val, (∀ b ∈ addrs (Val.refill a w v), ρ b = ρ a → b = a) → rename ρ (Val.refill a w v) = Val.refill (ρ a) w (rename ρ v)
  | .prim _, _ => rfl
  | .seq vs, h => by simp only [Val.refill, rename, renameAll_refill ρ a w hw vs h]
  | .tup vs, h => by simp only [Val.refill, rename, renameAll_refill ρ a w hw vs h]
  | .set vs, h => by simp only [Val.refill, rename, renameAll_refill ρ a w hw vs h]
  | .map kvs, h => by simp only [Val.refill, rename, renameVals_refill ρ a w hw kvs h]
  | .dict kvs, h => by simp only [Val.refill, rename, renameVals_refill ρ a w hw kvs h]
  | .alt i v, h => by simp only [Val.refill, rename, rename_refill ρ a w hw v h]
  | .obj vs, h => by simp only [Val.refill, rename, renameAll_refill ρ a w hw vs h]
  | .absent, _ => rfl
  | .present v, h => by simp only [Val.refill, rename, rename_refill ρ a w hw v h]
  | .nullptr, _ => rfl
  | .uptr v, h => by simp only [Val.refill, rename, rename_refill ρ a w hw v h]
  | .sptr b v, h => by
      simp only [Val.refill, addrs, List.mem_cons] at h
      simp only [Val.refill, rename]
      by_cases hb : b = a
      · subst hb
        simp only [if_pos, rename_noaddr ρ w hw]
      · have hb' : ρ b ≠ ρ a := fun e => hb (h b (.inl rfl) e)
        simp only [if_neg hb] at h
        simp only [if_neg hb, if_neg hb', rename_refill ρ a w hw v fun c hc => h c (.inr hc)]

theorem renameAll_refill (ρ : Nat → Nat) (a : Nat) (w : Val) (hw : addrs w = []) :
    ∀ vs : List Val, (∀ b ∈ addrsAll (refillAll a w vs), ρ b = ρ a → b = a) → renameAll ρ (refillAll a w vs) = refillAll (ρ a) w (renameAll ρ vs)
  | [], _ => rfl
  | v :: vs, h => by
      simp only [refillAll, addrsAll, List.mem_append] at h
      simp only [refillAll, renameAll, rename_refill ρ a w hw v fun c hc => h c (.inl hc), renameAll_refill ρ a w hw vs fun c hc => h c (.inr hc)]

theorem renameVals_refill (ρ : Nat → Nat) (a : Nat) (w : Val) (hw : addrs w = []) :
    ∀ kvs : List (Str × Val), (∀ b ∈ addrsVals (refillVals a w kvs), ρ b = ρ a → b = a) →
      renameVals ρ (refillVals a w kvs) = refillVals (ρ a) w (renameVals ρ kvs)
  | [], _ => rfl
  | (k, v) :: kvs, h => by
      simp only [refillVals, addrsVals, List.mem_append] at h
      simp only [refillVals, renameVals, rename_refill ρ a w hw v fun c hc => h c (.inl hc), renameVals_refill ρ a w hw kvs fun c hc => h c (.inr hc)]
end

end Verif.Core
