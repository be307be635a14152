import Verif.ParseMeaning
import Verif.Props.PerfectHash
import Verif.Props.PolyStack

/-!
# More about the streaming parser

The side conditions of `computes` and where they come from; runs on parts of documents; parsing does not depend
on what is below on the stack.
-/

namespace Verif.Core
open Verif.Numeric Verif.EnumConv Verif.PerfectHash Verif.Props

/-! ## Side conditions -/

/-- The tables of all classes with three or more members have been built (this happens before `main`), which
means that the construction terminates. -/
def TablesBuilt (env : Env) (host : Host) : Prop :=
  ∀ c, (env.members c).length ≤ 2 ^ 63 ∧ ∃ fuel, fuel < 2 ^ 63 ∧
    (3 ≤ (env.members c).length → build host.charSigned ((env.members c).map (·.name)) fuel = .ok (host.table c))

theorem findIdx?_map_name (ms : List Member) (k : Str) : (ms.map (·.name)).findIdx? (· == k) = memberAt ms k := by
  unfold memberAt
  rw [List.findIdx?_map]
  rfl

theorem selects_of_build (env : Env) (host : Host) (h : TablesBuilt env host) : Selects env host := by
  intro c hc k
  obtain ⟨h1, fuel, h2, h3⟩ := h c
  unfold selectMember
  rw [C22_dispatch_exact host.charSigned _ fuel _ (by simpa using hc) (by simpa using h1) h2 (by simpa using h3) k]
  unfold lookupSpec
  rw [findIdx?_map_name]
  cases memberAt (env.members c) k <;> rfl

/-- A handler as an object of the stack. -/
def Host.obj (host : Host) (c : HClass) : PolyStack.Obj := ⟨0, host.size c, host.align c⟩

theorem used_total (host : Host) (K : List HClass) : used host K = StackSpec.total (K.map host.obj) := by
  induction K with
  | nil => rfl
  | cons c K ih => simp [used, StackSpec.total, ih, Host.obj]

/-- `room` is the test of the handler stack of C23, with the template arguments of parse_base.hpp:56. -/
theorem room_iff_full (host : Host) (K : List HClass) (c : HClass) :
    room host K c = !StackSpec.full 128 4096 (K.map host.obj) (host.obj c) := by
  unfold room StackSpec.full
  rw [used_total]
  simp only [List.length_map, Bool.not_or]
  congr 1
  · simp only [← decide_not, Nat.not_le]
  · simp only [← decide_not, Int.not_le]
    rfl

theorem used_le (host : Host) (S : Nat) (hs : ∀ c, host.size c ≤ S) (K : List HClass) : used host K ≤ K.length * S := by
  induction K with
  | nil => simp [used]
  | cons c K ih =>
    have := hs c
    simp only [used, List.length_cons, Nat.add_mul, Nat.one_mul]
    omega

/-- Handlers of at most `S` bytes, aligned to at most `A` bytes. -/
theorem roomy_of_sizes (host : Host) (S A d : Nat) (hs : ∀ c, host.size c ≤ S) (ha : ∀ c, host.align c ≤ A) (hd : d < 128)
    (h : d * S + S + A < 4096) : Roomy host d := by
  intro K c hK
  have h1 := used_le host S hs K
  have h2 : K.length * S ≤ d * S := Nat.mul_le_mul_right S hK
  have h3 := hs c
  have h4 := ha c
  simp only [room, Bool.and_eq_true, decide_eq_true_eq]
  omega

/-! ## Parts of documents -/

theorem prun_append (env : Env) (host : Host) (s : PState) (es more : List Event) : prun env host s (es ++ more) =
    match prun env host s es with
    | .go s' => prun env host s' more
    | .fail => .fail
    | .threw => .threw
    | .ub => .ub
    | .noHandler => .noHandler := by
  induction es generalizing s with
  | nil => rfl
  | cons e es ih =>
    simp only [List.cons_append, prun_cons]
    cases pstep env host s e <;> simp [ih]

/-! ## The handlers below do not matter -/

section
variable (env : Env) (host : Host) (d : Nat) (hroom : Roomy host d)

/-- Reading `j` does not depend on the handlers below and throws no exception, as long as there is room. -/
def Quiet (j : Json) : Prop :=
  ∀ K K' h n, K.length + j.depth ≤ d → K'.length + j.depth ≤ d → pval env host j K h n = pval env host j K' h n ∧ pval env host j K h n ≠ .threw

include hroom in
theorem quiet_child {α : Type} (j : Json) (hj : Quiet env host d j) (K K' : List HClass) (hK : K.length + j.depth ≤ d)
    (hK' : K'.length + j.depth ≤ d) (c : HClass) (t : Ty) (target : Val) (n : Nat) (outer : Val → Val) (k k' : Val → Nat → LRes α)
    (hk : ∀ v n, k v n = k' v n ∧ k v n ≠ .threw) :
    withChild env host K c t target n outer (pval env host j) k = withChild env host K' c t target n outer (pval env host j) k' ∧
      withChild env host K c t target n outer (pval env host j) k ≠ .threw := by
  unfold withChild
  rw [if_pos (hroom K c (by omega)), if_pos (hroom K' c (by omega))]
  generalize openP env t target n = o
  obtain ⟨h, w, n'⟩ := o
  obtain ⟨h1, h2⟩ := hj K K' h n' hK hK'
  simp only [← h1]
  cases hp : pval env host j K h n' with
  | ok v n'' => exact hk _ _
  | stuck p v n'' => simp
  | fail => simp
  | threw => exact absurd hp h2
  | ub => simp

include hroom in
theorem quiet_vec (t : Ty) (js : List Json) (hj : ∀ j ∈ js, Quiet env host d j) (K K' : List HClass) (hK : K.length + Json.depthAll js ≤ d)
    (hK' : K'.length + Json.depthAll js ≤ d) (vs : List Val) (n : Nat) :
    loopVec env host K t (pitems env host js) vs n = loopVec env host K' t (pitems env host js) vs n ∧
      loopVec env host K t (pitems env host js) vs n ≠ .threw := by
  induction js generalizing vs n with
  | nil => simp [pitems, loopVec]
  | cons j js ih =>
    simp only [Json.depthAll] at hK hK'
    have hm1 : j.depth ≤ Nat.max j.depth (Json.depthAll js) := Nat.le_max_left ..
    have hm2 : Json.depthAll js ≤ Nat.max j.depth (Json.depthAll js) := Nat.le_max_right ..
    have ih' := ih (fun j' h' => hj j' (by simp [h'])) (by omega) (by omega)
    simp only [pitems, loopVec]
    cases direct t with
    | some p =>
      simp only
      cases leafParse env p (first j) with
      | ub => simp
      | fail => simp
      | ok pv => exact ih' _ _
    | none =>
      simp only
      by_cases hi : isToken t (first j) = true
      · simp only [if_pos hi]
        exact quiet_child env host d hroom j (hj j (by simp)) K K' (by omega) (by omega) _ _ _ _ _ _ _ (fun v n => ih' _ _)
      · simp [hi]

include hroom in
theorem quiet_set (t : Ty) (js : List Json) (hj : ∀ j ∈ js, Quiet env host d j) (K K' : List HClass) (hK : K.length + Json.depthAll js ≤ d)
    (hK' : K'.length + Json.depthAll js ≤ d) (st vs : List Val) (n : Nat) :
    loopSet env host K t (pitems env host js) st vs n = loopSet env host K' t (pitems env host js) st vs n ∧
      loopSet env host K t (pitems env host js) st vs n ≠ .threw := by
  induction js generalizing st vs n with
  | nil => simp [pitems, loopSet]
  | cons j js ih =>
    simp only [Json.depthAll] at hK hK'
    have hm1 : j.depth ≤ Nat.max j.depth (Json.depthAll js) := Nat.le_max_left ..
    have hm2 : Json.depthAll js ≤ Nat.max j.depth (Json.depthAll js) := Nat.le_max_right ..
    have ih' := ih (fun j' h' => hj j' (by simp [h'])) (by omega) (by omega)
    simp only [pitems, loopSet]
    cases direct t with
    | some p =>
      simp only
      cases leafParse env p (first j) with
      | ub => simp
      | fail => simp
      | ok pv => exact ih' _ _ _
    | none =>
      simp only
      by_cases hi : isToken t (first j) = true
      · simp only [if_pos hi]
        exact quiet_child env host d hroom j (hj j (by simp)) K K' (by omega) (by omega) _ _ _ _ _ _ _ (fun v n => ih' _ _ _)
      · simp [hi]

include hroom in
theorem quiet_fix (C : Ty) (ts : List Ty) (js : List Json) (hj : ∀ j ∈ js, Quiet env host d j) (K K' : List HClass)
    (hK : K.length + 1 + Json.depthAll js ≤ d) (hK' : K'.length + 1 + Json.depthAll js ≤ d) (i : Nat) (vs : List Val) (n : Nat) :
    loopFix env host K C ts (pitems env host js) i vs n = loopFix env host K' C ts (pitems env host js) i vs n ∧
      loopFix env host K C ts (pitems env host js) i vs n ≠ .threw := by
  induction js generalizing i vs n with
  | nil => simp only [pitems, loopFix]; split <;> simp
  | cons j js ih =>
    simp only [Json.depthAll] at hK hK'
    have hm1 : j.depth ≤ Nat.max j.depth (Json.depthAll js) := Nat.le_max_left ..
    have hm2 : Json.depthAll js ≤ Nat.max j.depth (Json.depthAll js) := Nat.le_max_right ..
    have ih' := ih (fun j' h' => hj j' (by simp [h'])) (by omega) (by omega)
    simp only [pitems, loopFix]
    cases ts[i]? with
    | none => simp
    | some t =>
      simp only [if_pos (hroom K (.fixed C (i + 1)) (by omega)), if_pos (hroom K' (.fixed C (i + 1)) (by omega))]
      exact quiet_child env host d hroom j (hj j (by simp)) _ _ (by simp only [List.length_cons]; omega)
        (by simp only [List.length_cons]; omega) _ _ _ _ _ _ _ (fun v n => ih' _ _ _)

include hroom in
theorem quiet_map (t : Ty) (ms : List (Str × Json)) (hj : ∀ p ∈ ms, Quiet env host d p.2) (K K' : List HClass)
    (hK : K.length + Json.depthFields ms ≤ d) (hK' : K'.length + Json.depthFields ms ≤ d) (kvs : List (Str × Val)) (n : Nat) :
    loopMap env host K t (pfields env host ms) kvs n = loopMap env host K' t (pfields env host ms) kvs n ∧
      loopMap env host K t (pfields env host ms) kvs n ≠ .threw := by
  induction ms generalizing kvs n with
  | nil => simp [pfields, loopMap]
  | cons p ms ih =>
    obtain ⟨k, j⟩ := p
    simp only [Json.depthFields] at hK hK'
    have hm1 : j.depth ≤ Nat.max j.depth (Json.depthFields ms) := Nat.le_max_left ..
    have hm2 : Json.depthFields ms ≤ Nat.max j.depth (Json.depthFields ms) := Nat.le_max_right ..
    have ih' := ih (fun j' h' => hj j' (by simp [h'])) (by omega) (by omega)
    simp only [pfields, loopMap]
    exact quiet_child env host d hroom j (hj (k, j) (by simp)) K K' (by omega) (by omega) _ _ _ _ _ _ _ (fun v n => ih' _ _)

include hroom in
theorem quiet_obj (c : Nat) (ms : List (Str × Json)) (hj : ∀ p ∈ ms, Quiet env host d p.2) (K K' : List HClass)
    (hK : K.length + Json.depthFields ms ≤ d) (hK' : K'.length + Json.depthFields ms ≤ d) (vs : List Val) (n : Nat) :
    loopObj env host K c (pfields env host ms) vs n = loopObj env host K' c (pfields env host ms) vs n ∧
      loopObj env host K c (pfields env host ms) vs n ≠ .threw := by
  induction ms generalizing vs n with
  | nil => simp [pfields, loopObj]
  | cons p ms ih =>
    obtain ⟨k, j⟩ := p
    simp only [Json.depthFields] at hK hK'
    have hm1 : j.depth ≤ Nat.max j.depth (Json.depthFields ms) := Nat.le_max_left ..
    have hm2 : Json.depthFields ms ≤ Nat.max j.depth (Json.depthFields ms) := Nat.le_max_right ..
    have ih' := ih (fun j' h' => hj j' (by simp [h'])) (by omega) (by omega)
    simp only [pfields, loopObj]
    cases selectMember env host c k with
    | reject => simp
    | memoryError => simp
    | member i =>
      simp only
      cases (env.members c)[i]? with
      | none => simp
      | some m =>
        simp only
        by_cases ho : m.kind = .optional
        · simp only [if_pos ho]
          exact quiet_child env host d hroom j (hj (k, j) (by simp)) K K' (by omega) (by omega) _ _ _ _ _ _ _ (fun v n => ih' _ _)
        · simp only [if_neg ho]
          exact quiet_child env host d hroom j (hj (k, j) (by simp)) K K' (by omega) (by omega) _ _ _ _ _ _ _ (fun v n => ih' _ _)

theorem whole_ne_threw {α : Type} (mk : α → Val) (r : LRes α) (h : r ≠ .threw) : r.whole mk ≠ .threw := by
  cases r <;> simp_all [LRes.whole]

include hroom in
theorem quiet : ∀ j : Json, Quiet env host d j := by
  intro j
  induction hs : sizeOf j using Nat.strongRecOn generalizing j with
  | _ s ih =>
    subst hs
    intro K K' h n hK hK'
    have hsc : ∀ e, scalar env e K h n = scalar env e K' h n ∧ scalar env e K h n ≠ .threw := by
      intro e
      cases h <;> simp only [scalar] <;> try (simp; done)
      rename_i p v
      cases leafParse env p e <;> simp
      split <;> simp
    cases j with
    | null => rw [pval]; exact hsc _
    | bool b => rw [pval]; exact hsc _
    | num x => rw [pval]; exact hsc _
    | str x => rw [pval]; exact hsc _
    | arr js =>
      have ih' : ∀ j ∈ js, Quiet env host d j := fun j hj => ih _ (by
        have := List.sizeOf_lt_of_mem hj; simp only [Json.arr.sizeOf_spec]; omega) j rfl
      simp only [Json.depth] at hK hK'
      rw [pval]
      cases h <;> simp only [arrayFn] <;> try (simp; done)
      · rename_i t vs
        rw [if_pos (hroom K _ (by omega)), if_pos (hroom K' _ (by omega))]
        have := quiet_vec env host d hroom t js ih' (.vecItems t :: K) (.vecItems t :: K') (by simp only [List.length_cons]; omega)
          (by simp only [List.length_cons]; omega) vs n
        exact ⟨by rw [this.1], whole_ne_threw _ _ this.2⟩
      · rename_i t vs
        rw [if_pos (hroom K _ (by omega)), if_pos (hroom K' _ (by omega))]
        have := quiet_set env host d hroom t js ih' (.setItems t :: K) (.setItems t :: K') (by simp only [List.length_cons]; omega)
          (by simp only [List.length_cons]; omega) [] vs n
        exact ⟨by rw [this.1], whole_ne_threw _ _ this.2⟩
      · rename_i C ts vs
        rw [if_pos (hroom K _ (by omega)), if_pos (hroom K' _ (by omega))]
        have := quiet_fix env host d hroom C ts js ih' K K' (by omega) (by omega) 0 vs n
        exact ⟨by rw [this.1], whole_ne_threw _ _ this.2⟩
    | obj ms =>
      have ih' : ∀ p ∈ ms, Quiet env host d p.2 := fun p hp => ih _ (by
        have := List.sizeOf_lt_of_mem hp
        obtain ⟨k, v⟩ := p
        simp only [Json.obj.sizeOf_spec, Prod.mk.sizeOf_spec] at this ⊢
        omega) p.2 rfl
      simp only [Json.depth] at hK hK'
      rw [pval]
      cases h <;> simp only [objectFn] <;> try (simp; done)
      · rename_i C t kvs
        rw [if_pos (hroom K _ (by omega)), if_pos (hroom K' _ (by omega))]
        have := quiet_map env host d hroom t ms ih' (.mapItems C :: K) (.mapItems C :: K') (by simp only [List.length_cons]; omega)
          (by simp only [List.length_cons]; omega) kvs n
        exact ⟨by rw [this.1], whole_ne_threw _ _ this.2⟩
      · rename_i c vs
        rw [if_pos (hroom K _ (by omega)), if_pos (hroom K' _ (by omega))]
        have := quiet_obj env host d hroom c ms ih' (.object c :: K) (.object c :: K') (by simp only [List.length_cons]; omega)
          (by simp only [List.length_cons]; omega) vs n
        exact ⟨by rw [this.1], whole_ne_threw _ _ this.2⟩

end

end Verif.Core
