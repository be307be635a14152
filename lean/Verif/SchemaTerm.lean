import Verif.SchemaLemmas

/-!
# When the generator returns
-/

namespace Verif.Core
open Verif.Numeric Verif.EnumConv

mutual
/-- The classes named in a type. -/
def Ty.classes : Ty → List Nat
  | .prim _ => []
  | .vec t => t.classes
  | .arr _ t => t.classes
  | .set t => t.classes
  | .map _ t => t.classes
  | .dict t => t.classes
  | .tuple ts => Ty.classesAll ts
  | .variant ts => Ty.classesAll ts
  | .cls c => [c]
  | .uptr t => t.classes
  | .sptr t => t.classes

/-- The classes named in a list of types. -/
def Ty.classesAll : List Ty → List Nat
  | [] => []
  | t :: ts => t.classes ++ Ty.classesAll ts
end

/-- Class `d` is named in the type of a member of class `c`. -/
def Uses (env : Env) (d c : Nat) : Prop := ∃ m ∈ env.members c, d ∈ m.ty.classes

/-! ## More nested calls change nothing -/

theorem makeWith_mono (env : Env) {g g' : Ty → Defs → Gen Schema} (hg : ∀ t d r, g t d = some r → g' t d = some r) (t : Ty) (d : Defs) (r : Schema × Defs)
    (h : makeWith env g t d = some r) : makeWith env g' t d = some r := by
  cases t with
  | cls c =>
    simp only [makeWith, Option.map_eq_some_iff] at h ⊢
    obtain ⟨a, h1, h2⟩ := h
    exact ⟨a, hg _ _ _ h1, h2⟩
  | _ => exact hg _ _ _ h

theorem makesWith_mono {g g' : Ty → Defs → Gen Schema} (hg : ∀ t d r, g t d = some r → g' t d = some r) :
    ∀ (ts : List Ty) (d : Defs) (r : List Schema × Defs), makesWith g ts d = some r → makesWith g' ts d = some r := by
  intro ts
  induction ts with
  | nil => intro d r h; exact h
  | cons t ts ih =>
    intro d r h
    simp only [makesWith, Option.bind_eq_some_iff, Option.map_eq_some_iff] at h ⊢
    obtain ⟨a, h1, b, h2, h3⟩ := h
    exact ⟨a, hg _ _ _ h1, b, ih _ _ h2, h3⟩

theorem visitWith_mono {g g' : Ty → Defs → Gen Schema} (hg : ∀ t d r, g t d = some r → g' t d = some r) :
    ∀ (ms : List Member) (d : Defs) (r : (List (Str × Schema) × List Str) × Defs), visitWith g ms d = some r → visitWith g' ms d = some r := by
  intro ms
  induction ms with
  | nil => intro d r h; exact h
  | cons m ms ih =>
    intro d r h
    simp only [visitWith, Option.bind_eq_some_iff, Option.map_eq_some_iff] at h ⊢
    obtain ⟨a, h1, b, h2, h3⟩ := h
    exact ⟨a, hg _ _ _ h1, b, ih _ _ h2, h3⟩

theorem gen_succ (env : Env) : ∀ n t d r, gen env n t d = some r → gen env (n + 1) t d = some r := by
  intro n
  induction n with
  | zero => intro t d r h; cases h
  | succ n ih =>
    intro t d r h
    have hm := fun t d r => makeWith_mono env ih t d r
    cases t with
    | prim p => exact h
    | uptr t => simp only [gen] at h ⊢; exact ih _ _ _ h
    | sptr t => simp only [gen] at h ⊢; exact ih _ _ _ h
    | tuple ts =>
      rw [gen] at h ⊢
      simp only [Option.map_eq_some_iff] at h ⊢
      obtain ⟨a, h1, h2⟩ := h
      exact ⟨a, makesWith_mono hm _ _ _ h1, h2⟩
    | variant ts =>
      rw [gen] at h ⊢
      simp only [Option.map_eq_some_iff] at h ⊢
      obtain ⟨a, h1, h2⟩ := h
      exact ⟨a, makesWith_mono hm _ _ _ h1, h2⟩
    | cls c =>
      rw [gen] at h ⊢
      simp only [Option.map_eq_some_iff] at h ⊢
      obtain ⟨a, h1, h2⟩ := h
      exact ⟨a, visitWith_mono hm _ _ _ h1, h2⟩
    | _ =>
      rw [gen] at h ⊢
      simp only [Option.map_eq_some_iff] at h ⊢
      obtain ⟨a, h1, h2⟩ := h
      exact ⟨a, hm _ _ _ h1, h2⟩

theorem gen_mono (env : Env) (n m : Nat) (hm : n ≤ m) (t : Ty) (d : Defs) (r : Schema × Defs) (h : gen env n t d = some r) : gen env m t d = some r := by
  induction hm with
  | refl => exact h
  | step _ ih => exact gen_succ env _ _ _ _ ih

/-- The result does not depend on the number of nested calls. -/
theorem gen_unique (env : Env) (n m : Nat) (t : Ty) (d : Defs) (r r' : Schema × Defs) (h : gen env n t d = some r) (h' : gen env m t d = some r') : r = r' := by
  have h1 := gen_mono env n (max n m) (by omega) t d r h
  rw [gen_mono env m (max n m) (by omega) t d r' h'] at h1
  simpa using h1.symm

/-! ## Returning implies that there is no cycle -/

theorem makeWith_acc (env : Env) {g : Ty → Defs → Gen Schema} (hg : ∀ t d r, g t d = some r → ∀ c ∈ t.classes, Acc (Uses env) c) (t : Ty) (d : Defs)
    (r : Schema × Defs) (h : makeWith env g t d = some r) : ∀ c ∈ t.classes, Acc (Uses env) c := by
  cases t with
  | cls c =>
    simp only [makeWith, Option.map_eq_some_iff] at h
    obtain ⟨a, h1, -⟩ := h
    exact hg _ _ _ h1
  | _ => exact hg _ _ _ h

theorem makesWith_acc (env : Env) {g : Ty → Defs → Gen Schema} (hg : ∀ t d r, g t d = some r → ∀ c ∈ t.classes, Acc (Uses env) c) :
    ∀ (ts : List Ty) (d : Defs) (r : List Schema × Defs), makesWith g ts d = some r → ∀ c ∈ Ty.classesAll ts, Acc (Uses env) c := by
  intro ts
  induction ts with
  | nil => intro d r _ c hc; simp [Ty.classesAll] at hc
  | cons t ts ih =>
    intro d r h c hc
    simp only [makesWith, Option.bind_eq_some_iff, Option.map_eq_some_iff] at h
    obtain ⟨a, h1, b, h2, -⟩ := h
    rcases List.mem_append.1 (by simpa only [Ty.classesAll] using hc) with hc | hc
    · exact hg _ _ _ h1 c hc
    · exact ih _ _ h2 c hc

theorem visitWith_acc (env : Env) {g : Ty → Defs → Gen Schema} (hg : ∀ t d r, g t d = some r → ∀ c ∈ t.classes, Acc (Uses env) c) :
    ∀ (ms : List Member) (d : Defs) (r : (List (Str × Schema) × List Str) × Defs), visitWith g ms d = some r →
      ∀ m ∈ ms, ∀ c ∈ m.ty.classes, Acc (Uses env) c := by
  intro ms
  induction ms with
  | nil => intro d r _ m hm; cases hm
  | cons m ms ih =>
    intro d r h m' hm' c hc
    simp only [visitWith, Option.bind_eq_some_iff, Option.map_eq_some_iff] at h
    obtain ⟨a, h1, b, h2, -⟩ := h
    rcases List.mem_cons.1 hm' with rfl | hm'
    · exact hg _ _ _ h1 c hc
    · exact ih _ _ h2 m' hm' c hc

theorem gen_acc (env : Env) : ∀ n t d r, gen env n t d = some r → ∀ c ∈ t.classes, Acc (Uses env) c := by
  intro n
  induction n with
  | zero => intro t d r h; cases h
  | succ n ih =>
    intro t d r h
    have hm := fun t d r => makeWith_acc env ih t d r
    cases t with
    | prim p => intro c hc; simp [Ty.classes] at hc
    | uptr t => simp only [gen] at h; simpa only [Ty.classes] using ih _ _ _ h
    | sptr t => simp only [gen] at h; simpa only [Ty.classes] using ih _ _ _ h
    | tuple ts =>
      simp only [gen, Option.map_eq_some_iff] at h
      obtain ⟨a, h1, -⟩ := h
      simpa only [Ty.classes] using makesWith_acc env hm _ _ _ h1
    | variant ts =>
      simp only [gen, Option.map_eq_some_iff] at h
      obtain ⟨a, h1, -⟩ := h
      simpa only [Ty.classes] using makesWith_acc env hm _ _ _ h1
    | cls c =>
      simp only [gen, Option.map_eq_some_iff] at h
      obtain ⟨a, h1, -⟩ := h
      intro c' hc'
      simp only [Ty.classes, List.mem_singleton] at hc'
      subst hc'
      refine Acc.intro _ ?_
      rintro d ⟨m, hm1, hm2⟩
      exact visitWith_acc env hm _ _ _ h1 m hm1 d hm2
    | dict t =>
      simp only [gen, Option.map_eq_some_iff] at h
      obtain ⟨a, h1, -⟩ := h
      have := hm _ _ _ h1
      simpa [Ty.classes, Ty.classesAll] using this
    | _ =>
      simp only [gen, Option.map_eq_some_iff] at h
      obtain ⟨a, h1, -⟩ := h
      simpa only [Ty.classes] using hm _ _ _ h1

/-! ## Without cycles it returns -/

/-- The generator returns, whatever the definitions. -/
def Returns (env : Env) (t : Ty) : Prop := ∀ d, ∃ n r, gen env n t d = some r

theorem Returns.make {env : Env} {t : Ty} (h : Returns env t) (d : Defs) : ∃ n r, makeWith env (gen env n) t d = some r := by
  obtain ⟨n, r, h1⟩ := h d
  cases t with
  | cls c => exact ⟨n, _, by simp only [makeWith, h1]; rfl⟩
  | _ => exact ⟨n, r, h1⟩

theorem makeWith_le (env : Env) (n m : Nat) (h : n ≤ m) (t : Ty) (d : Defs) (r : Schema × Defs) (hr : makeWith env (gen env n) t d = some r) :
    makeWith env (gen env m) t d = some r :=
  makeWith_mono env (fun t d r => gen_mono env n m h t d r) t d r hr

theorem returns_all (env : Env) (ts : List Ty) (h : ∀ t ∈ ts, Returns env t) : ∀ d, ∃ n r, makesWith (makeWith env (gen env n)) ts d = some r := by
  induction ts with
  | nil => intro d; exact ⟨0, _, rfl⟩
  | cons t ts ih =>
    intro d
    obtain ⟨n1, ⟨s, d1⟩, h1⟩ := (h t (by simp)).make d
    obtain ⟨n2, ⟨ss, d2⟩, h2⟩ := ih (fun t ht => h t (by simp [ht])) d1
    refine ⟨max n1 n2, (s :: ss, d2), ?_⟩
    rw [makesWith, makeWith_le env n1 (max n1 n2) (by omega) _ _ _ h1]
    simp only [Option.bind_some]
    rw [makesWith_mono (fun t d r => makeWith_le env n2 (max n1 n2) (by omega) t d r) _ _ _ h2]
    rfl

theorem returns_members (env : Env) (ms : List Member) (h : ∀ m ∈ ms, Returns env m.ty) : ∀ d, ∃ n r, visitWith (makeWith env (gen env n)) ms d = some r := by
  induction ms with
  | nil => intro d; exact ⟨0, _, rfl⟩
  | cons m ms ih =>
    intro d
    obtain ⟨n1, ⟨s, d1⟩, h1⟩ := (h m (by simp)).make d
    obtain ⟨n2, ⟨⟨ps, rs⟩, d2⟩, h2⟩ := ih (fun t ht => h t (by simp [ht])) d1
    refine ⟨max n1 n2, (((m.name, s) :: ps, if m.kind = .optional then rs else m.name :: rs), d2), ?_⟩
    rw [visitWith, makeWith_le env n1 (max n1 n2) (by omega) _ _ _ h1]
    simp only [Option.bind_some]
    rw [visitWith_mono (fun t d r => makeWith_le env n2 (max n1 n2) (by omega) t d r) _ _ _ h2]
    rfl

mutual
theorem returns (env : Env) : ∀ t : Ty, (∀ c ∈ t.classes, Returns env (.cls c)) → Returns env t
  | .prim p, _ => fun d => ⟨1, _, rfl⟩
  | .vec t, h => fun d => by
      obtain ⟨n, r, h1⟩ := (returns env t (by simpa only [Ty.classes] using h)).make d
      exact ⟨n + 1, _, by simp only [gen, h1]; rfl⟩
  | .arr k t, h => fun d => by
      obtain ⟨n, r, h1⟩ := (returns env t (by simpa only [Ty.classes] using h)).make d
      exact ⟨n + 1, _, by simp only [gen, h1]; rfl⟩
  | .set t, h => fun d => by
      obtain ⟨n, r, h1⟩ := (returns env t (by simpa only [Ty.classes] using h)).make d
      exact ⟨n + 1, _, by simp only [gen, h1]; rfl⟩
  | .map o t, h => fun d => by
      obtain ⟨n, r, h1⟩ := (returns env t (by simpa only [Ty.classes] using h)).make d
      exact ⟨n + 1, _, by simp only [gen, h1]; rfl⟩
  | .dict t, h => fun d => by
      have h1 : ∀ t' ∈ [Ty.prim .str, t], Returns env t' := by
        intro t' ht'
        rcases List.mem_cons.1 ht' with rfl | ht'
        · exact fun d => ⟨1, _, rfl⟩
        · rw [List.mem_singleton.1 ht']
          exact returns env t (by simpa only [Ty.classes] using h)
      have h2 : Returns env (.tuple [.prim .str, t]) := fun d => by
        obtain ⟨n, r, h2⟩ := returns_all env _ h1 d
        exact ⟨n + 1, _, by simp only [gen, h2]; rfl⟩
      obtain ⟨n, r, h3⟩ := h2.make d
      exact ⟨n + 1, _, by simp only [gen, h3]; rfl⟩
  | .tuple ts, h => fun d => by
      obtain ⟨n, r, h1⟩ := returns_all env ts (returnsAll env ts (by simpa only [Ty.classes] using h)) d
      exact ⟨n + 1, _, by simp only [gen, h1]; rfl⟩
  | .variant ts, h => fun d => by
      obtain ⟨n, r, h1⟩ := returns_all env ts (returnsAll env ts (by simpa only [Ty.classes] using h)) d
      exact ⟨n + 1, _, by simp only [gen, h1]; rfl⟩
  | .cls c, h => h c (by simp [Ty.classes])
  | .uptr t, h => fun d => by
      obtain ⟨n, r, h1⟩ := returns env t (by simpa only [Ty.classes] using h) d
      exact ⟨n + 1, r, by simp only [gen, h1]⟩
  | .sptr t, h => fun d => by
      obtain ⟨n, r, h1⟩ := returns env t (by simpa only [Ty.classes] using h) d
      exact ⟨n + 1, r, by simp only [gen, h1]⟩

theorem returnsAll (env : Env) : ∀ ts : List Ty, (∀ c ∈ Ty.classesAll ts, Returns env (.cls c)) → ∀ t ∈ ts, Returns env t
  | [], _ => by intro t ht; cases ht
  | t :: ts, h => by
      have h1 := returns env t fun c hc => h c (by simp [Ty.classesAll, hc])
      have h2 := returnsAll env ts (fun c hc => h c (by simp [Ty.classesAll, hc]))
      intro t' ht'
      rcases List.mem_cons.1 ht' with h3 | ht'
      · rw [h3]; exact h1
      · exact h2 t' ht'
end

theorem returns_acc (env : Env) (c : Nat) (h : Acc (Uses env) c) : Returns env (.cls c) := by
  induction h with
  | intro c _ ih =>
    intro d
    obtain ⟨n, r, h1⟩ := returns_members env (env.members c) (fun m hm => returns env m.ty fun c' hc' => ih c' ⟨m, hm, hc'⟩) d
    exact ⟨n + 1, _, by simp only [gen, h1]; rfl⟩

/-- The generator returns exactly if no class of the type leads into a cycle of classes. -/
theorem gen_returns_iff (env : Env) (t : Ty) (d : Defs) : (∃ n r, gen env n t d = some r) ↔ ∀ c ∈ t.classes, Acc (Uses env) c :=
  ⟨fun ⟨n, r, h⟩ => gen_acc env n t d r h, fun h => returns env t (fun c hc => returns_acc env c (h c hc)) d⟩

end Verif.Core
