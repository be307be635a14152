import Verif.Schema
import Verif.SchemaSpec
import Verif.Render
import Verif.WriteLemmas

/-!
# Facts about generated schemas
-/

namespace Verif.Core
open Verif.Numeric Verif.EnumConv JsonSchema

/-! ## The validator -/

theorem all3_true (l : List (Option Bool)) : all3 l = some true ↔ ∀ x ∈ l, x = some true := by
  induction l with
  | nil => simp [all3]
  | cons a l ih =>
    simp only [all3, List.forall_mem_cons, ← ih]
    cases a with
    | none => cases h : all3 l with
      | none => simp [and3]
      | some b => cases b <;> simp [and3]
    | some a => cases a <;> cases h : all3 l with
      | none => simp [and3]
      | some b => cases b <;> simp [and3]

theorem all3_false (l : List (Option Bool)) (h : some false ∈ l) : all3 l = some false := by
  induction l with
  | nil => cases h
  | cons a l ih =>
    rcases List.mem_cons.1 h with rfl | h
    · rfl
    · rw [all3, ih h]
      cases a with
      | none => rfl
      | some a => cases a <;> rfl

theorem count3_zero (l : List (Option Bool)) (h : ∀ x ∈ l, x = some false) : count3 l = some 0 := by
  induction l with
  | nil => rfl
  | cons a l ih => simp [count3, h a (by simp), ih fun x hx => h x (by simp [hx])]

theorem count3_one (l : List (Option Bool)) (i : Nat) (hi : l[i]? = some (some true)) (h : ∀ (k : Nat) x, l[k]? = some x → k ≠ i → x = some false) :
    count3 l = some 1 := by
  induction l generalizing i with
  | nil => simp at hi
  | cons a l ih =>
    cases i with
    | zero =>
      simp only [List.getElem?_cons_zero, Option.some.injEq] at hi
      subst hi
      have : count3 l = some 0 := count3_zero l fun x hx => by
        obtain ⟨k, hk, he⟩ := List.getElem_of_mem hx
        exact h (k + 1) x (by simp [hk, he]) (by simp)
      simp [count3, this]
    | succ i =>
      simp only [List.getElem?_cons_succ] at hi
      simp [count3, h 0 a rfl (by simp), ih i hi fun k x hk hne => h (k + 1) x (by simpa using hk) (by omega)]

theorem validate_true (root : Json) (n : Nat) (kw : List (Str × Json)) (doc : Json) :
    validate root (n + 1) (.obj kw) doc = some true ↔
      checkRef root (validate root n) kw doc = some true ∧ checkType kw doc = some true ∧ checkEnum kw doc = some true ∧
      checkMin kw doc = some true ∧ checkMax kw doc = some true ∧ checkPrefix (validate root n) kw doc = some true ∧
      checkItems (validate root n) kw doc = some true ∧ checkUnique kw doc = some true ∧ checkMinItems kw doc = some true ∧
      checkMaxItems kw doc = some true ∧ checkProperties (validate root n) kw doc = some true ∧ checkAdditional (validate root n) kw doc = some true ∧
      checkRequired kw doc = some true ∧ checkOneOf (validate root n) kw doc = some true := by
  rw [validate, all3_true]
  simp

theorem validate_type_false (root : Json) (n : Nat) (kw : List (Str × Json)) (doc : Json) (h : checkType kw doc = some false) :
    validate root (n + 1) (.obj kw) doc = some false := by
  rw [validate]
  apply all3_false
  simp [h]

/-- A verdict for each of finitely many documents, with the same amount of fuel. -/
theorem verdicts (root : Json) (l : List (Json × Json × Bool)) (h : ∀ p ∈ l, Verdict root p.1 p.2.1 p.2.2) :
    ∃ n, ∀ fuel, n ≤ fuel → ∀ p ∈ l, validate root fuel p.1 p.2.1 = some p.2.2 := by
  induction l with
  | nil => exact ⟨0, by simp⟩
  | cons p l ih =>
    obtain ⟨n1, h1⟩ := h p (by simp)
    obtain ⟨n2, h2⟩ := ih fun q hq => h q (by simp [hq])
    refine ⟨max n1 n2, fun fuel hf q hq => ?_⟩
    rcases List.mem_cons.1 hq with rfl | hq
    · exact h1 fuel (by omega)
    · exact h2 fuel (by omega) q hq

/-- `n + 1` suffices when `n` suffices for the parts. -/
theorem JsonSchema.Verdict.step {root schema doc : Json} {b : Bool} (n : Nat) (h : ∀ fuel, n ≤ fuel → validate root (fuel + 1) schema doc = some b) :
    Verdict root schema doc b := by
  refine ⟨n + 1, fun fuel hf => ?_⟩
  obtain ⟨m, rfl⟩ : ∃ m, fuel = m + 1 := ⟨fuel - 1, by omega⟩
  exact h m (by omega)

/-- The verdict is unique. -/
theorem JsonSchema.Verdict.unique {root schema doc : Json} {a b : Bool} (h : Verdict root schema doc a) (h' : Verdict root schema doc b) : a = b := by
  obtain ⟨n, h⟩ := h
  obtain ⟨m, h'⟩ := h'
  have h1 := h (max n m) (by omega)
  rw [h' (max n m) (by omega)] at h1
  simpa using h1.symm

/-! ## What the generator makes -/

/-- The entry of a class. -/
abbrev className (env : Env) (c : Nat) : Str := (env.classes c).name

/-- `s` is a schema for `t`, with references into the definitions `D`. -/
inductive Desc (env : Env) (D : Defs) : Ty → Schema → Prop
  | prim (p : Prim) : Desc env D (.prim p) (primSchema p)
  | vec (t : Ty) (s : Schema) : Desc env D t s → Desc env D (.vec t) (.items s false none)
  | arr (n : Nat) (t : Ty) (s : Schema) : Desc env D t s → Desc env D (.arr n t) (.items s false (some n))
  | set (t : Ty) (s : Schema) : Desc env D t s → Desc env D (.set t) (.items s true none)
  | map (o : Bool) (t : Ty) (s : Schema) : Desc env D t s → Desc env D (.map o t) (.mapping s)
  | dict (t : Ty) (s : Schema) : Desc env D (.tuple [.prim .str, t]) s → Desc env D (.dict t) (.items s false none)
  | tuple (ts : List Ty) (ss : List Schema) : ss.length = ts.length → (∀ (i : Nat) t s, ts[i]? = some t → ss[i]? = some s → Desc env D t s) →
      Desc env D (.tuple ts) (.tuple ss)
  | variant (ts : List Ty) (ss : List Schema) : ss.length = ts.length → (∀ (i : Nat) t s, ts[i]? = some t → ss[i]? = some s → Desc env D t s) →
      Desc env D (.variant ts) (.oneOf ss)
  | cls (c : Nat) (ps : List (Str × Schema)) : ps.map (·.1) = (env.members c).map (·.name) →
      (∀ (i : Nat) m p, (env.members c)[i]? = some m → ps[i]? = some p → Desc env D m.ty p.2) →
      Desc env D (.cls c) (.object ps (((env.members c).filter fun m => m.kind ≠ .optional).map (·.name)))
  | ref (c : Nat) (s : Schema) : D.lookup (className env c) = some s → Desc env D (.cls c) s → Desc env D (.cls c) (.ref (defRef (className env c)))
  | uptr (t : Ty) (s : Schema) : Desc env D t s → Desc env D (.uptr t) s
  | sptr (t : Ty) (s : Schema) : Desc env D t s → Desc env D (.sptr t) s

/-- More definitions. -/
def Defs.Extends (D D' : Defs) : Prop := ∀ k s, D.lookup k = some s → D'.lookup k = some s

theorem Desc.extend {env : Env} {D D' : Defs} (hx : D.Extends D') {t : Ty} {s : Schema} (h : Desc env D t s) : Desc env D' t s := by
  induction h with
  | prim p => exact .prim p
  | vec t s _ ih => exact .vec t s ih
  | arr n t s _ ih => exact .arr n t s ih
  | set t s _ ih => exact .set t s ih
  | map o t s _ ih => exact .map o t s ih
  | dict t s _ ih => exact .dict t s ih
  | tuple ts ss hl _ ih => exact .tuple ts ss hl ih
  | variant ts ss hl _ ih => exact .variant ts ss hl ih
  | cls c ps hn _ ih => exact .cls c ps hn ih
  | ref c s hl _ ih => exact .ref c s (hx _ _ hl) ih
  | uptr t s _ ih => exact .uptr t s ih
  | sptr t s _ ih => exact .sptr t s ih

/-- Every definition is that of a class. -/
def Defs.Good (env : Env) (D : Defs) : Prop := ∀ q ∈ D, ∃ c, className env c = q.1 ∧ Desc env D (.cls c) q.2 ∧ ∃ ps rs, q.2 = .object ps rs

theorem lookup_self_mem {α : Type} {k : Str} {a : α} {l : List (Str × α)} (h : l.lookup k = some a) : (k, a) ∈ l := by
  induction l with
  | nil => cases h
  | cons p l ih =>
    obtain ⟨k', a'⟩ := p
    rw [List.lookup_cons] at h
    by_cases hk : k = k'
    · subst hk
      simp at h
      simp [h]
    · rw [beq_eq_false_iff_ne.2 hk] at h
      exact List.mem_cons_of_mem _ (ih h)

theorem Defs.Good.lookup {env : Env} {D : Defs} (h : Defs.Good env D) (k : Str) (s : Schema) (hl : D.lookup k = some s) :
    ∃ c, className env c = k ∧ Desc env D (.cls c) s ∧ ∃ ps rs, s = .object ps rs := h (k, s) (lookup_self_mem hl)

theorem mapAssign_mem {α : Type} {k : Str} {a : α} {l : List (Str × α)} {q : Str × α} (h : q ∈ mapAssign k a l) : q = (k, a) ∨ q ∈ l := by
  induction l with
  | nil => simpa [mapAssign] using h
  | cons p l ih =>
    obtain ⟨k', a'⟩ := p
    rw [mapAssign] at h
    split at h
    · rcases List.mem_cons.1 h with h | h
      · exact .inl h
      · exact .inr (List.mem_cons_of_mem _ h)
    · split at h
      · rcases List.mem_cons.1 h with h | h
        · exact .inr (by simp [h])
        · rcases ih h with h | h
          · exact .inl h
          · exact .inr (List.mem_cons_of_mem _ h)
      · rcases List.mem_cons.1 h with h | h
        · exact .inl h
        · exact .inr h

theorem mapAssign_lookup_self {α : Type} (k : Str) (a : α) (l : List (Str × α)) : (mapAssign k a l).lookup k = some a := by
  induction l with
  | nil => simp [mapAssign]
  | cons p l ih =>
    obtain ⟨k', a'⟩ := p
    rw [mapAssign]
    split
    · simp
    · split
      · rw [List.lookup_cons, beq_eq_false_iff_ne.2 (by grind)]
        exact ih
      · simp

theorem mapAssign_lookup_ne {α : Type} (k k' : Str) (a : α) (l : List (Str × α)) (h : k' ≠ k) : (mapAssign k a l).lookup k' = l.lookup k' := by
  induction l with
  | nil => simp [mapAssign, List.lookup_cons, beq_eq_false_iff_ne.2 h]
  | cons p l ih =>
    obtain ⟨k'', a''⟩ := p
    rw [mapAssign]
    split
    · subst_vars
      simp only [List.lookup_cons, beq_eq_false_iff_ne.2 h]
    · split
      · rw [List.lookup_cons, List.lookup_cons, ih]
      · rw [List.lookup_cons, beq_eq_false_iff_ne.2 h]

theorem Defs.insert_extends (D : Defs) (k : Str) (s : Schema) : D.Extends (D.insert k s) := by
  intro k' s' h
  rw [Defs.insert]
  split
  · exact h
  · rename_i hn
    by_cases hk : k' = k
    · subst hk
      rw [hn] at h
      cases h
    · rw [mapAssign_lookup_ne _ _ _ _ hk]
      exact h

theorem Defs.insert_lookup (D : Defs) (k : Str) (s : Schema) : (D.lookup k = none ∧ (D.insert k s).lookup k = some s) ∨ (D.insert k s = D ∧ ∃ s', D.lookup k = some s') := by
  rw [Defs.insert]
  cases h : D.lookup k with
  | none => exact .inl ⟨rfl, mapAssign_lookup_self k s D⟩
  | some s' => exact .inr ⟨rfl, s', rfl⟩

theorem Defs.Extends.refl (D : Defs) : D.Extends D := fun _ _ h => h
theorem Defs.Extends.trans {D D' D'' : Defs} (h : D.Extends D') (h' : D'.Extends D'') : D.Extends D'' := fun k s hk => h' k s (h k s hk)

/-- Different classes have different names (`typeid(T).name()`). -/
def Env.NamesDiffer (env : Env) : Prop := ∀ c c', className env c = className env c' → env.classes c = env.classes c'

theorem Desc.same_class {env : Env} {D : Defs} {t : Ty} {s : Schema} (h : Desc env D t s) : ∀ c c', t = .cls c → env.classes c = env.classes c' →
    Desc env D (.cls c') s := by
  induction h with
  | cls c ps hn hm _ =>
    rintro c1 c' h he
    cases h
    have : env.members c = env.members c' := by simp only [Env.members, he]
    rw [this] at hn hm ⊢
    exact .cls c' ps hn hm
  | ref c s hl _ ih =>
    rintro c1 c' h he
    cases h
    have : className env c = className env c' := by simp only [className, he]
    rw [this] at hl ⊢
    exact .ref c' s hl (ih c c' rfl he)
  | _ => intro c c' h; cases h

/-- What a step of the generator guarantees. -/
def Makes (env : Env) (t : Ty) (d : Defs) (r : Schema × Defs) : Prop := d.Extends r.2 ∧ Defs.Good env r.2 ∧ Desc env r.2 t r.1

theorem makeWith_makes (env : Env) (hn : env.NamesDiffer) (g : Ty → Defs → Gen Schema) (hg : ∀ t d r, Defs.Good env d → g t d = some r → Makes env t d r)
    (ho : ∀ c d r, g (.cls c) d = some r → ∃ ps rs, r.1 = .object ps rs) (t : Ty) (d : Defs) (r : Schema × Defs) (hd : Defs.Good env d) (h : makeWith env g t d = some r) : Makes env t d r := by
  cases t with
  | cls c =>
    simp only [makeWith, Option.map_eq_some_iff] at h
    obtain ⟨⟨s, d'⟩, h1, rfl⟩ := h
    obtain ⟨e1, e2, e3⟩ := hg _ _ _ hd h1
    simp only at e1 e2 e3 ⊢
    have hx := Defs.insert_extends d' (className env c) s
    refine ⟨e1.trans hx, ?_, ?_⟩
    · intro q hq
      simp only [Defs.insert] at hq
      split at hq
      · obtain ⟨c', h3, h4, h5⟩ := e2 q hq
        exact ⟨c', h3, h4.extend hx, h5⟩
      · rcases mapAssign_mem hq with rfl | hq
        · exact ⟨c, rfl, e3.extend hx, ho c d _ h1⟩
        · obtain ⟨c', h3, h4, h5⟩ := e2 q hq
          exact ⟨c', h3, h4.extend hx, h5⟩
    · rcases Defs.insert_lookup d' (className env c) s with ⟨_, h2⟩ | ⟨h2, s', h3⟩
      · exact .ref c s h2 (e3.extend hx)
      · simp only
        rw [h2]
        obtain ⟨c', h4, h5, -⟩ := e2.lookup _ s' h3
        exact .ref c s' h3 (h5.same_class c' c rfl (hn _ _ h4))
  | _ => exact hg _ _ _ hd h

theorem makesWith_makes (env : Env) (mk : Ty → Defs → Gen Schema) (hg : ∀ t d r, Defs.Good env d → mk t d = some r → Makes env t d r) :
    ∀ (ts : List Ty) (d : Defs) (r : List Schema × Defs), Defs.Good env d → makesWith mk ts d = some r →
      d.Extends r.2 ∧ Defs.Good env r.2 ∧ r.1.length = ts.length ∧ ∀ (i : Nat) t s, ts[i]? = some t → r.1[i]? = some s → Desc env r.2 t s := by
  intro ts
  induction ts with
  | nil =>
    intro d r hd h
    simp only [makesWith, Option.some.injEq] at h
    subst h
    exact ⟨Defs.Extends.refl _, hd, rfl, by simp⟩
  | cons t ts ih =>
    intro d r hd h
    simp only [makesWith, Option.bind_eq_some_iff, Option.map_eq_some_iff] at h
    obtain ⟨⟨s, d'⟩, h1, ⟨ss, d''⟩, h2, rfl⟩ := h
    obtain ⟨e1, e2, e3⟩ := hg _ _ _ hd h1
    obtain ⟨f1, f2, f3, f4⟩ := ih _ _ e2 h2
    refine ⟨e1.trans f1, f2, by simp [f3], fun i t' s' ht hs => ?_⟩
    cases i with
    | zero =>
      simp only [List.getElem?_cons_zero, Option.some.injEq] at ht hs
      subst ht hs
      exact e3.extend f1
    | succ i => exact f4 i t' s' (by simpa using ht) (by simpa using hs)

theorem visitWith_makes (env : Env) (mk : Ty → Defs → Gen Schema) (hg : ∀ t d r, Defs.Good env d → mk t d = some r → Makes env t d r) :
    ∀ (ms : List Member) (d : Defs) (r : (List (Str × Schema) × List Str) × Defs), Defs.Good env d → visitWith mk ms d = some r →
      d.Extends r.2 ∧ Defs.Good env r.2 ∧ r.1.1.map (·.1) = ms.map (·.name) ∧ r.1.2 = (ms.filter fun m => m.kind ≠ .optional).map (·.name) ∧
        ∀ (i : Nat) m p, ms[i]? = some m → r.1.1[i]? = some p → Desc env r.2 m.ty p.2 := by
  intro ms
  induction ms with
  | nil =>
    intro d r hd h
    simp only [visitWith, Option.some.injEq] at h
    subst h
    exact ⟨Defs.Extends.refl _, hd, rfl, rfl, by simp⟩
  | cons m ms ih =>
    intro d r hd h
    simp only [visitWith, Option.bind_eq_some_iff, Option.map_eq_some_iff] at h
    obtain ⟨⟨s, d'⟩, h1, ⟨⟨ps, rs⟩, d''⟩, h2, rfl⟩ := h
    obtain ⟨e1, e2, e3⟩ := hg _ _ _ hd h1
    obtain ⟨f1, f2, f3, f4, f5⟩ := ih _ _ e2 h2
    refine ⟨e1.trans f1, f2, by simp at f3; simp [f3], ?_, fun i m' p ht hs => ?_⟩
    · simp only at f4
      by_cases hk : m.kind = .optional
      · simp [hk, f4]
      · simp [hk, f4]
    · cases i with
      | zero =>
        simp only [List.getElem?_cons_zero, Option.some.injEq] at ht hs
        subst ht hs
        exact e3.extend f1
      | succ i => exact f5 i m' p (by simpa using ht) (by simpa using hs)

theorem gen_object (env : Env) (fuel c : Nat) (d : Defs) (r : Schema × Defs) (h : gen env fuel (.cls c) d = some r) : ∃ ps rs, r.1 = .object ps rs := by
  cases fuel with
  | zero => cases h
  | succ fuel =>
    simp only [gen, Option.map_eq_some_iff] at h
    obtain ⟨⟨⟨ps, rs⟩, d'⟩, -, rfl⟩ := h
    exact ⟨ps, rs, rfl⟩

/-- The generator makes a schema for the type, and all definitions it needs. -/
theorem gen_makes (env : Env) (hn : env.NamesDiffer) : ∀ fuel t d r, Defs.Good env d → gen env fuel t d = some r → Makes env t d r := by
  intro fuel
  induction fuel with
  | zero => intro t d r _ h; cases h
  | succ fuel ih =>
    intro t d r hd h
    have hmk := makeWith_makes env hn (gen env fuel) ih (gen_object env fuel)
    cases t with
    | prim p =>
      simp only [gen, Option.some.injEq] at h
      subst h
      exact ⟨Defs.Extends.refl _, hd, .prim p⟩
    | vec t =>
      simp only [gen, Option.map_eq_some_iff] at h
      obtain ⟨⟨s, d'⟩, h1, rfl⟩ := h
      obtain ⟨e1, e2, e3⟩ := hmk _ _ _ hd h1
      exact ⟨e1, e2, .vec t s e3⟩
    | arr n t =>
      simp only [gen, Option.map_eq_some_iff] at h
      obtain ⟨⟨s, d'⟩, h1, rfl⟩ := h
      obtain ⟨e1, e2, e3⟩ := hmk _ _ _ hd h1
      exact ⟨e1, e2, .arr n t s e3⟩
    | set t =>
      simp only [gen, Option.map_eq_some_iff] at h
      obtain ⟨⟨s, d'⟩, h1, rfl⟩ := h
      obtain ⟨e1, e2, e3⟩ := hmk _ _ _ hd h1
      exact ⟨e1, e2, .set t s e3⟩
    | map o t =>
      simp only [gen, Option.map_eq_some_iff] at h
      obtain ⟨⟨s, d'⟩, h1, rfl⟩ := h
      obtain ⟨e1, e2, e3⟩ := hmk _ _ _ hd h1
      exact ⟨e1, e2, .map o t s e3⟩
    | dict t =>
      simp only [gen, Option.map_eq_some_iff] at h
      obtain ⟨⟨s, d'⟩, h1, rfl⟩ := h
      obtain ⟨e1, e2, e3⟩ := hmk _ _ _ hd h1
      exact ⟨e1, e2, .dict t s e3⟩
    | tuple ts =>
      simp only [gen, Option.map_eq_some_iff] at h
      obtain ⟨⟨ss, d'⟩, h1, rfl⟩ := h
      obtain ⟨e1, e2, e3, e4⟩ := makesWith_makes env _ hmk _ _ _ hd h1
      exact ⟨e1, e2, .tuple ts ss e3 e4⟩
    | variant ts =>
      simp only [gen, Option.map_eq_some_iff] at h
      obtain ⟨⟨ss, d'⟩, h1, rfl⟩ := h
      obtain ⟨e1, e2, e3, e4⟩ := makesWith_makes env _ hmk _ _ _ hd h1
      exact ⟨e1, e2, .variant ts ss e3 e4⟩
    | cls c =>
      simp only [gen, Option.map_eq_some_iff] at h
      obtain ⟨⟨⟨ps, rs⟩, d'⟩, h1, rfl⟩ := h
      obtain ⟨e1, e2, e3, e4, e5⟩ := visitWith_makes env _ hmk _ _ _ hd h1
      simp only at e1 e2 e3 e4 e5
      subst e4
      exact ⟨e1, e2, .cls c ps e3 e5⟩
    | uptr t =>
      simp only [gen] at h
      obtain ⟨e1, e2, e3⟩ := ih _ _ _ hd h
      exact ⟨e1, e2, .uptr t _ e3⟩
    | sptr t =>
      simp only [gen] at h
      obtain ⟨e1, e2, e3⟩ := ih _ _ _ hd h
      exact ⟨e1, e2, .sptr t _ e3⟩

theorem buildSchema_desc (env : Env) (hn : env.NamesDiffer) (fuel : Nat) (t : Ty) (s : Schema) (D : Defs) (h : buildSchema env fuel t = some (s, D)) :
    Defs.Good env D ∧ Desc env D t s := by
  obtain ⟨-, h1, h2⟩ := gen_makes env hn fuel t [] (s, D) (by intro q h; cases h) h
  exact ⟨h1, h2⟩

end Verif.Core
