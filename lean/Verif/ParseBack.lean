import Verif.ParseMore
import Verif.RoundTrip

/-!
# Reading back with the streaming parser what was written

`back`: the meaning of a document that shows a value is the value, with new addresses for the shared objects.
-/

namespace Verif.Core
open Verif.Numeric Verif.EnumConv

/-! ## Targets that are like new -/

/-- Nothing of the target is left in the result: containers are empty, optional members absent. (Numbers,
strings and pointers are overwritten in any case.) -/
inductive Blank (env : Env) : Ty → Val → Prop
  | prim (p : Prim) (v : Val) : Blank env (.prim p) v
  | uptr (t : Ty) (v : Val) : Blank env (.uptr t) v
  | sptr (t : Ty) (v : Val) : Blank env (.sptr t) v
  | variant (ts : List Ty) (v : Val) : Blank env (.variant ts) v
  | vec (t : Ty) (v : Val) : v.elements = [] → Blank env (.vec t) v
  | set (t : Ty) (v : Val) : v.elements = [] → Blank env (.set t) v
  | map (o : Bool) (t : Ty) (v : Val) : v.entries = [] → Blank env (.map o t) v
  | dict (t : Ty) (v : Val) : v.entries = [] → Blank env (.dict t) v
  | arr (n : Nat) (t : Ty) (v : Val) : (∀ u ∈ fit env (List.replicate n t) v.components, Blank env t u) → Blank env (.arr n t) v
  | tuple (ts : List Ty) (v : Val) : (∀ (i : Nat) (t : Ty) (u : Val), ts[i]? = some t → (fit env ts v.components)[i]? = some u → Blank env t u) →
      Blank env (.tuple ts) v
  | cls (c : Nat) (v : Val) :
      (∀ (i : Nat) (m : Member) (u : Val), (env.members c)[i]? = some m → (fitMembers env (env.members c) v.members)[i]? = some u → m.kind = .optional → u = .absent) →
      (∀ (i : Nat) (m : Member) (u : Val), (env.members c)[i]? = some m → (fitMembers env (env.members c) v.members)[i]? = some u → m.kind ≠ .optional → Blank env m.ty u) →
      Blank env (.cls c) v

/-- New objects are like new. -/
def Env.BlankCtor (env : Env) : Prop := ∀ t, Blank env t (env.ctor t)

mutual
/-- The value can be read back by the streaming parser: leaves are represented exactly, sets have no shared
objects; no variants and dictionaries. -/
def Parsable (env : Env) : Val → Ty → Prop
  | .prim p, .prim k => LeafGood env p k
  | .seq vs, .vec t => ParsableAll env vs t
  | .tup vs, .arr _ t => ParsableAll env vs t
  | .tup vs, .tuple ts => Parsables env vs ts
  | .set vs, .set t => addrsAll vs = [] ∧ ParsableAll env vs t
  | .map kvs, .map _ t => ParsableVals env kvs t
  | .obj vs, .cls c => ParsableMembers env vs (env.members c)
  | .uptr v, .uptr t => Parsable env v t
  | .sptr _ v, .sptr t => Parsable env v t
  | _, _ => False

/-- All elements. -/
def ParsableAll (env : Env) : List Val → Ty → Prop
  | [], _ => True
  | v :: vs, t => Parsable env v t ∧ ParsableAll env vs t

/-- Elements with types from a list. -/
def Parsables (env : Env) : List Val → List Ty → Prop
  | v :: vs, t :: ts => Parsable env v t ∧ Parsables env vs ts
  | _, _ => True

/-- Entries of a map. -/
def ParsableVals (env : Env) : List (Str × Val) → Ty → Prop
  | [], _ => True
  | (_, v) :: kvs, t => Parsable env v t ∧ ParsableVals env kvs t

/-- Members of a class. -/
def ParsableMembers (env : Env) : List Val → List Member → Prop
  | v :: vs, m :: ms =>
      (match v with
      | .absent => True
      | .present w => Parsable env w m.ty
      | v => Parsable env v m.ty) ∧ ParsableMembers env vs ms
  | _, _ => True
end

theorem Parsables_replicate (env : Env) (vs : List Val) (t : Ty) (h : ParsableAll env vs t) :
    Parsables env vs (List.replicate vs.length t) := by
  induction vs with
  | nil => simp [Parsables]
  | cons v vs ih => simp only [ParsableAll] at h; simp [Parsables, List.replicate_succ, h.1, ih h.2]

theorem ParsableVals_iff (env : Env) (kvs : List (Str × Val)) (t : Ty) :
    ParsableVals env kvs t ↔ ∀ p ∈ kvs, Parsable env p.2 t := by
  induction kvs with
  | nil => simp [ParsableVals]
  | cons p kvs ih => cases p; simp [ParsableVals, ih]

/-! ## Addresses -/

/-- The objects of `l` get different new addresses from `n` to `n' - 1`. -/
structure Fresh (ρ : Nat → Nat) (n n' : Nat) (l : List Nat) : Prop where
  le : n ≤ n'
  within : ∀ a ∈ l, n ≤ ρ a ∧ ρ a < n'
  inj : ∀ a ∈ l, ∀ b ∈ l, ρ a = ρ b → a = b

theorem Fresh.nil (ρ : Nat → Nat) (n : Nat) : Fresh ρ n n [] := ⟨Nat.le_refl _, by simp, by simp⟩

theorem Fresh.merge {ρ₁ ρ₂ : Nat → Nat} {n n₁ n₂ : Nat} {l₁ l₂ : List Nat} (h₁ : Fresh ρ₁ n n₁ l₁) (h₂ : Fresh ρ₂ n₁ n₂ l₂)
    (hd : (l₁ ++ l₂).Nodup) : ∃ ρ, Fresh ρ n n₂ (l₁ ++ l₂) ∧ (∀ a ∈ l₁, ρ₁ a = ρ a) ∧ ∀ a ∈ l₂, ρ₂ a = ρ a := by
  have hdis : ∀ a ∈ l₂, a ∉ l₁ := by
    intro a h2 h1
    exact (List.nodup_append.1 hd).2.2 a h1 a h2 rfl
  refine ⟨fun a => if a ∈ l₁ then ρ₁ a else ρ₂ a, ?_, fun a ha => by simp [ha], fun a ha => by simp [hdis a ha]⟩
  have hle := h₁.le
  have hle' := h₂.le
  constructor
  · omega
  · intro a ha
    by_cases h : a ∈ l₁
    · have := h₁.within a h; simp only [if_pos h]; omega
    · have := h₂.within a ((List.mem_append.1 ha).resolve_left h); simp only [if_neg h]; omega
  · intro a ha b hb hab
    by_cases h : a ∈ l₁ <;> by_cases h' : b ∈ l₁ <;> simp only [h, h', if_true, if_false] at hab
    · exact h₁.inj a h b h' hab
    · have := h₁.within a h; have := h₂.within b ((List.mem_append.1 hb).resolve_left h'); omega
    · have := h₁.within b h'; have := h₂.within a ((List.mem_append.1 ha).resolve_left h); omega
    · exact h₂.inj a ((List.mem_append.1 ha).resolve_left h) b ((List.mem_append.1 hb).resolve_left h') hab

/-- No object is written as a reference. -/
def NoRef (tr : List Occ) : Prop := ∀ a p, Occ.ref a p ∉ tr

theorem NoRef.append {t1 t2 : List Occ} (h : NoRef (t1 ++ t2)) : NoRef t1 ∧ NoRef t2 :=
  ⟨fun a p hm => h a p (by simp [hm]), fun a p hm => h a p (by simp [hm])⟩

/-! ## Reading back -/

/-- The document that shows the value means the value. -/
def Back (env : Env) (H : Heap) (v : Val) : Prop :=
  ∀ t pos j tr target n, Shows env v t pos j tr → NoRef tr → HasTy env H v t → Parsable env v t → (addrs v).Nodup → Blank env t target →
    ∃ ρ n', meaning env j t target n = .yes (rename ρ v) n' ∧ Fresh ρ n n' (addrs v)

theorem back_each (env : Env) (H : Heap) (vs : List Val) (hv : ∀ v ∈ vs, Back env H v) :
    ∀ ts pos k js tr targets n, ShowsItems env vs ts pos k js tr → NoRef tr → HasTys env H vs ts → Parsables env vs ts → (addrsAll vs).Nodup →
      (∀ (i : Nat) (t : Ty) (u : Val), ts[i]? = some t → (fit env ts targets)[i]? = some u → Blank env t u) →
      ∃ ρ n', eachM env (meaningItems env js) ts targets n = .yes (renameAll ρ vs) n' ∧ Fresh ρ n n' (addrsAll vs) := by
  induction vs with
  | nil =>
    intro ts pos k js tr targets n hs _ _ _ _ _
    cases hs
    exact ⟨id, n, rfl, Fresh.nil _ _⟩
  | cons v vs ih =>
    intro ts pos k js tr targets n hs hn ht hp hd hb
    cases hs with
    | @cons _ _ t ts _ _ j js tr1 tr2 s1 s2 =>
      obtain ⟨hn1, hn2⟩ := hn.append
      simp only [HasTys] at ht
      simp only [Parsables] at hp
      simp only [addrsAll] at hd ⊢
      obtain ⟨hd1, hd2, -⟩ := List.nodup_append.1 hd
      obtain ⟨ρ₁, n₁, h1, f1⟩ := hv v (by simp) t _ j tr1 (targets.headD (env.ctor t)) n s1 hn1 ht.1 hp.1 hd1 (hb 0 t _ rfl rfl)
      obtain ⟨ρ₂, n₂, h2, f2⟩ := ih (fun w hw => hv w (by simp [hw])) ts _ _ js tr2 targets.tail n₁ s2 hn2 ht.2 hp.2 hd2
        (fun i t u h h' => hb (i + 1) t u (by simpa using h) (by simpa [fit] using h'))
      obtain ⟨ρ, f, e1, e2⟩ := f1.merge f2 hd
      refine ⟨ρ, n₂, ?_, f⟩
      rw [meaningItems, eachM, h1]
      simp only [Means.bind, h2, Means.map, renameAll]
      rw [rename_congr ρ₁ ρ v e1, renameAll_congr ρ₂ ρ vs e2]

theorem back_many (env : Env) (H : Heap) (hc : env.BlankCtor) (t : Ty) (vs : List Val) (hv : ∀ v ∈ vs, Back env H v) :
    ∀ pos k js tr n, ShowsItems env vs (List.replicate vs.length t) pos k js tr → NoRef tr → AllTy env H vs t → ParsableAll env vs t → (addrsAll vs).Nodup →
      ∃ ρ n', manyM env t (meaningItems env js) n = .yes (renameAll ρ vs) n' ∧ Fresh ρ n n' (addrsAll vs) := by
  induction vs with
  | nil =>
    intro pos k js tr n hs _ _ _ _
    cases hs
    exact ⟨id, n, rfl, Fresh.nil _ _⟩
  | cons v vs ih =>
    intro pos k js tr n hs hn ht hp hd
    rw [List.length_cons, List.replicate_succ] at hs
    cases hs with
    | @cons _ _ _ _ _ _ j js tr1 tr2 s1 s2 =>
      obtain ⟨hn1, hn2⟩ := hn.append
      simp only [AllTy] at ht
      simp only [ParsableAll] at hp
      simp only [addrsAll] at hd ⊢
      obtain ⟨hd1, hd2, -⟩ := List.nodup_append.1 hd
      obtain ⟨ρ₁, n₁, h1, f1⟩ := hv v (by simp) t _ j tr1 (env.ctor t) n s1 hn1 ht.1 hp.1 hd1 (hc t)
      obtain ⟨ρ₂, n₂, h2, f2⟩ := ih (fun w hw => hv w (by simp [hw])) _ _ js tr2 n₁ s2 hn2 ht.2 hp.2 hd2
      obtain ⟨ρ, f, e1, e2⟩ := f1.merge f2 hd
      refine ⟨ρ, n₂, ?_, f⟩
      rw [meaningItems, manyM, h1]
      simp only [Means.bind, h2, Means.map, renameAll]
      rw [rename_congr ρ₁ ρ v e1, renameAll_congr ρ₂ ρ vs e2]

theorem lookup_none_of {α : Type} (k : Str) (l : List (Str × α)) (h : k ∉ l.map (·.1)) : l.lookup k = none := by
  induction l with
  | nil => rfl
  | cons p l ih =>
    obtain ⟨k', a⟩ := p
    simp only [List.map_cons, List.mem_cons, not_or] at h
    rw [List.lookup_cons, beq_eq_false_iff_ne.2 h.1]
    exact ih h.2

theorem mapAssign_keys {α : Type} (k : Str) (a : α) (l : List (Str × α)) (x : Str) : x ∈ (mapAssign k a l).map (·.1) ↔ x = k ∨ x ∈ l.map (·.1) := by
  induction l with
  | nil => simp [mapAssign]
  | cons p l ih =>
    obtain ⟨k', a'⟩ := p
    simp only [mapAssign]
    split
    · rename_i h; subst h; simp
    · split
      · simp only [List.map_cons, List.mem_cons, ih]; grind
      · simp

theorem back_entries (env : Env) (H : Heap) (hc : env.BlankCtor) (t : Ty) (kvs : List (Str × Val)) (hv : ∀ p ∈ kvs, Back env H p.2) :
    ∀ pos k js tr acc n, ShowsVals env kvs t pos k js tr → NoRef tr → (∀ p ∈ kvs, HasTy env H p.2 t) → (∀ p ∈ kvs, Parsable env p.2 t) → (addrsVals kvs).Nodup →
      (kvs.map (·.1)).Nodup → (∀ p ∈ kvs, p.1 ∉ acc.map (·.1)) →
      ∃ ρ n', entriesM env t (meaningFields env js) acc n = .yes ((renameVals ρ kvs).foldl (fun s p => mapAssign p.1 p.2 s) acc) n' ∧ Fresh ρ n n' (addrsVals kvs) := by
  induction kvs with
  | nil =>
    intro pos k js tr acc n hs _ _ _ _ _ _
    cases hs
    exact ⟨id, n, rfl, Fresh.nil _ _⟩
  | cons p kvs ih =>
    intro pos k js tr acc n hs hn ht hp hd hk hacc
    cases hs with
    | @cons key v _ _ _ _ j js tr1 tr2 s1 s2 =>
      obtain ⟨hn1, hn2⟩ := hn.append
      simp only [addrsVals] at hd ⊢
      obtain ⟨hd1, hd2, -⟩ := List.nodup_append.1 hd
      simp only [List.map_cons, List.nodup_cons] at hk
      obtain ⟨ρ₁, n₁, h1, f1⟩ := hv (key, v) (by simp) t _ j tr1 (env.ctor t) n s1 hn1 (ht (key, v) (by simp)) (hp (key, v) (by simp)) hd1 (hc t)
      obtain ⟨ρ₂, n₂, h2, f2⟩ := ih (fun w hw => hv w (by simp [hw])) _ _ js tr2 (mapAssign key (rename ρ₁ v) acc) n₁ s2 hn2 (fun w hw => ht w (by simp [hw]))
        (fun w hw => hp w (by simp [hw])) hd2 hk.2 (fun q hq => by
          rw [mapAssign_keys]
          rintro (h | h)
          · exact hk.1 (h ▸ List.mem_map_of_mem hq)
          · exact hacc q (by simp [hq]) h)
      obtain ⟨ρ, f, e1, e2⟩ := f1.merge f2 hd
      refine ⟨ρ, n₂, ?_, f⟩
      rw [meaningFields, entriesM, lookup_none_of key acc (hacc (key, v) (by simp)), Option.getD_none, h1]
      simp only [Means.bind, h2, renameVals, List.foldl_cons]
      rw [rename_congr ρ₁ ρ v e1, renameVals_congr ρ₂ ρ kvs e2]

theorem memberAt_at (pre : List Member) (m : Member) (ms : List Member) (h : ((pre ++ m :: ms).map (·.name)).Nodup) :
    memberAt (pre ++ m :: ms) m.name = some pre.length := by
  unfold memberAt
  induction pre with
  | nil => simp [List.findIdx?_cons]
  | cons p pre ih =>
    simp only [List.cons_append, List.map_cons, List.nodup_cons] at h
    have hne : (p.name == m.name) = false := by
      rw [beq_eq_false_iff_ne]
      intro he
      exact h.1 (by rw [he]; simp)
    rw [List.cons_append, List.findIdx?_cons, hne, ih h.2]
    simp

theorem Parsable_field {env : Env} {H : Heap} {m : Member} {v w : Val} {vs : List Val} {ms : List Member} (h : fieldOf m.kind v = .here w)
    (ht : HasTy env H w m.ty) (hr : ParsableMembers env (v :: vs) (m :: ms)) : Parsable env w m.ty := by
  rcases fieldOf_here h with ⟨-, rfl⟩ | ⟨ho, rfl⟩
  · simp only [ParsableMembers] at hr
    exact hr.1
  · cases v <;> first | (simp only [ParsableMembers] at hr; exact hr.1) | (simp [HasTy] at ht)

theorem ParsableMembers_tail {env : Env} {m : Member} {v : Val} {vs : List Val} {ms : List Member}
    (hr : ParsableMembers env (v :: vs) (m :: ms)) : ParsableMembers env vs ms := by
  cases v <;> (simp only [ParsableMembers] at hr; exact hr.2)

theorem parse_back_members (env : Env) (H : Heap) (hc : env.BlankCtor) (vs : List Val) (hv : ∀ w, sizeOf w < 1 + sizeOf vs → Back env H w) :
    ∀ (pre ms : List Member) pos k js tr (done bs : List Val) n, ShowsMembers env vs ms pos k js tr → NoRef tr → MembersTy env H vs ms → ParsableMembers env vs ms →
      (addrsAll vs).Nodup → ((pre ++ ms).map (·.name)).Nodup → done.length = pre.length → bs.length = ms.length →
      (∀ (i : Nat) (m : Member) (u : Val), ms[i]? = some m → bs[i]? = some u → m.kind = .optional → u = .absent) →
      (∀ (i : Nat) (m : Member) (u : Val), ms[i]? = some m → bs[i]? = some u → m.kind ≠ .optional → Blank env m.ty u) →
      ∃ ρ n', membersM env (pre ++ ms) (meaningFields env js) (done ++ bs) n = .yes (done ++ renameAll ρ vs) n' ∧ Fresh ρ n n' (addrsAll vs) := by
  induction vs with
  | nil =>
    intro pre ms pos k js tr done bs n hs _ _ _ _ _ _ hl _ _
    cases hs
    have : bs = [] := by simpa using hl
    subst this
    exact ⟨id, n, rfl, Fresh.nil _ _⟩
  | cons v vs ih =>
    intro pre ms pos k js tr done bs n hs hn ht hp hd hnd hdl hl hopt hbl
    have ih' := ih (fun w hw => hv w (by simp only [List.cons.sizeOf_spec]; omega))
    cases ms with
    | nil => cases hs
    | cons m ms =>
    cases bs with
    | nil => simp at hl
    | cons b bs =>
    have hl' : bs.length = ms.length := by simpa using hl
    have hnd' : (((pre ++ [m]) ++ ms).map (·.name)).Nodup := by simpa using hnd
    have hopt' : ∀ (i : Nat) (m : Member) (u : Val), ms[i]? = some m → bs[i]? = some u → m.kind = .optional → u = .absent :=
      fun i m u h h' => hopt (i + 1) m u (by simpa using h) (by simpa using h')
    have hbl' : ∀ (i : Nat) (m : Member) (u : Val), ms[i]? = some m → bs[i]? = some u → m.kind ≠ .optional → Blank env m.ty u :=
      fun i m u h h' => hbl (i + 1) m u (by simpa using h) (by simpa using h')
    have happ : ∀ w : Val, done ++ w :: bs = (done ++ [w]) ++ bs := by intro w; simp
    have hmem : pre ++ m :: ms = (pre ++ [m]) ++ ms := by simp
    have hat : memberAt (pre ++ m :: ms) m.name = some pre.length := memberAt_at pre m ms hnd
    have hget : (pre ++ m :: ms)[pre.length]? = some m := by simp
    have hgetD : ∀ d : Val, (done ++ b :: bs).getD pre.length d = b := by intro d; rw [← hdl]; simp [List.getD]
    have hset : ∀ w : Val, (done ++ b :: bs).set pre.length w = (done ++ [w]) ++ bs := by
      intro w; rw [← hdl]; simp
    rw [MembersTy_cons] at ht
    have hptl := ParsableMembers_tail hp
    cases hs with
    | skip hk s =>
      have hb : b = .absent := hopt 0 m b rfl rfl hk
      subst hb
      obtain ⟨ρ, n', h1, f⟩ := ih' (pre ++ [m]) ms pos k js tr (done ++ [.absent]) bs n s hn ht.2 hptl (by simpa [addrsAll, addrs] using hd) hnd' (by simp [hdl]) hl' hopt' hbl'
      refine ⟨ρ, n', ?_, by simpa [addrsAll, addrs] using f⟩
      rw [hmem, happ, h1]
      simp [renameAll, rename]
    | @engaged w _ _ _ _ _ j js tr1 tr2 hk s1 s2 =>
      obtain ⟨hn1, hn2⟩ := hn.append
      have hfield : fieldOf m.kind (.present w) = .here w := by rw [hk]; rfl
      rw [hfield] at ht
      have hpw := Parsable_field hfield ht.1 hp
      simp only [addrsAll, addrs] at hd ⊢
      obtain ⟨hd1, hd2, -⟩ := List.nodup_append.1 hd
      obtain ⟨ρ₁, n₁, h1, f1⟩ := hv w (by have := fieldOf_size hfield; simp only [List.cons.sizeOf_spec]; omega) m.ty _ j tr1 (env.ctor m.ty) n s1 hn1 ht.1 hpw hd1 (hc _)
      obtain ⟨ρ₂, n₂, h2, f2⟩ := ih' (pre ++ [m]) ms _ _ js tr2 (done ++ [.present (rename ρ₁ w)]) bs n₁ s2 hn2 ht.2 hptl hd2 hnd' (by simp [hdl]) hl' hopt' hbl'
      obtain ⟨ρ, f, e1, e2⟩ := f1.merge f2 hd
      refine ⟨ρ, n₂, ?_, f⟩
      rw [meaningFields, membersM]
      simp only [hat, hget, hk, if_true, h1, Means.bind, hset]
      rw [hmem, h2]
      simp only [renameAll, rename]
      rw [rename_congr ρ₁ ρ w e1, renameAll_congr ρ₂ ρ vs e2]
      simp
    | @plain _ _ _ _ _ _ j js tr1 tr2 hk s1 s2 =>
      obtain ⟨hn1, hn2⟩ := hn.append
      have hfield : fieldOf m.kind v = .here v := by
        cases hkk : m.kind <;> first | exact absurd hkk hk | rfl
      rw [hfield] at ht
      have hpw := Parsable_field hfield ht.1 hp
      simp only [addrsAll] at hd ⊢
      obtain ⟨hd1, hd2, -⟩ := List.nodup_append.1 hd
      obtain ⟨ρ₁, n₁, h1, f1⟩ := hv v (by have := fieldOf_size hfield; simp only [List.cons.sizeOf_spec]; omega) m.ty _ j tr1 b n s1 hn1 ht.1 hpw hd1 (hbl 0 m b rfl rfl hk)
      obtain ⟨ρ₂, n₂, h2, f2⟩ := ih' (pre ++ [m]) ms _ _ js tr2 (done ++ [rename ρ₁ v]) bs n₁ s2 hn2 ht.2 hptl hd2 hnd' (by simp [hdl]) hl' hopt' hbl'
      obtain ⟨ρ, f, e1, e2⟩ := f1.merge f2 hd
      refine ⟨ρ, n₂, ?_, f⟩
      rw [meaningFields, membersM]
      simp only [hat, hget, hk, if_false, hgetD, h1, Means.bind, hset]
      rw [hmem, h2]
      simp only [renameAll]
      rw [rename_congr ρ₁ ρ v e1, renameAll_congr ρ₂ ρ vs e2]
      simp

theorem meaning_uptr (env : Env) (j : Json) (t : Ty) (target : Val) (n : Nat) :
    meaning env j (.uptr t) target n = (meaning env j t (env.ctor t) n).map .uptr := by
  cases j <;> simp only [meaning, nodeM]

theorem meaning_sptr (env : Env) (j : Json) (t : Ty) (target : Val) (n : Nat) :
    meaning env j (.sptr t) target n = (meaning env j t (env.ctor t) (n + 1)).map (.sptr n) := by
  cases j <;> simp only [meaning, nodeM]

/-- A leaf that was written means the leaf, for the parser too. -/
theorem leaf_meaning (env : Env) (hclk : 0 < env.clk) (k : Prim) (p : PVal) (j : Json) (ht : PrimTy env p k) (hg : LeafGood env p k)
    (h : serPrim env k p = .ok j) : leafMeaning env k j = .ok p := by
  have hb := leaf_back env hclk k p j ht hg h
  cases k with
  | flt t =>
    cases p with
    | flt f =>
      rw [serPrim_flt] at h
      split at h
      · rename_i hfin
        simp only [LeafSer.ok.injEq] at h
        subst h
        have hr := round_fits t f ht
        cases t with
        | double => simp only [leafMeaning, floatMeaning, hr]
        | float => simp only [leafMeaning, floatMeaning, hr, Props.withinRange_of_fits _ _ ht hfin, if_true]
      · cases h
    | _ => exact ht.elim
  | _ => simp only [leafMeaning, hb]

theorem addrsVals_perm {l l' : List (Str × Val)} (h : l.Perm l') : (addrsVals l).Perm (addrsVals l') := by
  induction h with
  | nil => exact List.Perm.refl _
  | cons p _ ih => obtain ⟨k, v⟩ := p; exact ih.append_left _
  | swap p q l =>
    obtain ⟨k, v⟩ := p
    obtain ⟨k', v'⟩ := q
    simp only [addrsVals, ← List.append_assoc]
    exact (List.perm_append_comm).append_right _
  | trans _ _ h1 h2 => exact h1.trans h2

theorem Fresh.of_mem {ρ : Nat → Nat} {n n' : Nat} {l l' : List Nat} (h : Fresh ρ n n' l) (hm : ∀ a ∈ l', a ∈ l) : Fresh ρ n n' l' :=
  ⟨h.le, fun a ha => h.within a (hm a ha), fun a ha b hb => h.inj a (hm a ha) b (hm b hb)⟩

/-- The document that shows a value means the value. -/
theorem back (env : Env) (hclk : 0 < env.clk) (hdist : env.DistinctNames) (hc : env.BlankCtor) (H : Heap) : ∀ v, Back env H v := by
  apply Val.strong
  intro v ih t pos j tr target n hs hn ht hp hd hb
  cases hs with
  | @prim p k _ _ h =>
    refine ⟨id, n, ?_, Fresh.nil _ _⟩
    have := leaf_meaning env hclk k p j ht hp h
    cases j <;> simp only [meaning, nodeM, this, rename]
  | @vec vs t _ js _ s =>
    simp only [Parsable] at hp
    obtain ⟨ρ, n', h1, f⟩ := back_many env H hc t vs (fun w hw => ih w (by have := mem_size hw; simp; omega)) _ _ js tr n s hn ht hp hd
    refine ⟨ρ, n', ?_, f⟩
    cases hb with
    | vec _ _ hb => simp only [meaning, nodeM, h1, Means.map, hb, List.nil_append, rename]
  | @arr vs k t _ js _ s =>
    obtain ⟨hl, ht⟩ := ht
    subst hl
    obtain ⟨ρ, n', h1, f⟩ := back_each env H vs (fun w hw => ih w (by have := mem_size hw; simp; omega)) _ _ _ js tr target.components n s hn
      (HasTys_replicate _ _ _ _ ht) (Parsables_replicate _ _ _ hp) hd (by
        cases hb with
        | arr _ _ _ hb =>
          intro i t' u h h'
          rw [List.getElem?_replicate] at h
          split at h
          · simp only [Option.some.injEq] at h
            subst h
            exact hb u (List.mem_of_getElem? h')
          · cases h)
    exact ⟨ρ, n', by simp only [meaning, nodeM, h1, Means.map, rename], f⟩
  | @tuple vs ts _ js _ s =>
    obtain ⟨ρ, n', h1, f⟩ := back_each env H vs (fun w hw => ih w (by have := mem_size hw; simp; omega)) _ _ _ js tr target.components n s hn ht hp hd (by
      cases hb with
      | tuple _ _ hb => exact hb)
    exact ⟨ρ, n', by simp only [meaning, nodeM, h1, Means.map, rename], f⟩
  | @set vs t _ js _ s =>
    obtain ⟨hp0, hp⟩ := hp
    obtain ⟨ρ, n', h1, f⟩ := back_many env H hc t vs (fun w hw => ih w (by have := mem_size hw; simp; omega)) _ _ js tr n s hn ht.1 hp hd
    refine ⟨ρ, n', ?_, f⟩
    cases hb with
    | set _ _ hb =>
      simp only [meaning, nodeM, h1, Means.map, hb, rename, renameAll_noaddr ρ vs hp0]
      rw [insertAll env.less vs [] ht.2 (by simp), List.nil_append]
  | @map kvs kvs' o t _ js _ hperm _ s =>
    have hk := (ValsTy_iff _ _ _ _).1 ht.1
    simp only [Parsable] at hp
    rw [ParsableVals_iff] at hp
    have hnd := ht.2.nodup
    obtain ⟨ρ, n', h1, f⟩ := back_entries env H hc t kvs' (fun w hw => ih w.2 (by have := mem_size_kv (hperm.mem_iff.1 hw); simp; omega)) _ _ js tr [] n s hn
      (fun w hw => hk w (hperm.mem_iff.1 hw)) (fun w hw => hp w (hperm.mem_iff.1 hw)) ((addrsVals_perm hperm).nodup_iff.2 hd)
      ((hperm.map _).nodup_iff.2 hnd) (by simp)
    refine ⟨ρ, n', ?_, f.of_mem fun a ha => (addrsVals_perm hperm).mem_iff.2 ha⟩
    cases hb with
    | map _ _ _ hb =>
      simp only [meaning, nodeM, hb, h1, Means.map, rename]
      rw [rebuild _ (renameVals ρ kvs)]
      · rw [renameVals_eq, renameVals_eq]
        exact hperm.map _
      · have := (keysAsc_iff kvs).1 ht.2
        rw [renameVals_eq]
        simpa [KeysAsc, List.pairwise_map] using this
      · rw [renameVals_eq]
        simpa [Function.comp_def] using hnd
  | dict => simp [Parsable] at hp
  | alt => simp [Parsable] at hp
  | @cls vs c _ js _ s =>
    cases hb with
    | cls _ _ hb1 hb2 =>
      obtain ⟨ρ, n', h1, f⟩ := parse_back_members env H hc vs (fun w hw => ih w (by simp; omega)) [] (env.members c) _ _ js tr [] (fitMembers env (env.members c) target.members) n
        s hn ht hp hd (hdist c) rfl (fitMembers_length env _ _) hb1 hb2
      rw [List.nil_append, List.nil_append, List.nil_append] at h1
      exact ⟨ρ, n', by simp only [meaning, nodeM, h1, Means.map, rename], f⟩
  | @uptr w t _ _ _ s =>
    obtain ⟨ρ, n', h1, f⟩ := ih w (by simp) t pos j tr (env.ctor t) n s hn ht hp hd (hc t)
    exact ⟨ρ, n', by rw [meaning_uptr, h1]; rfl, f⟩
  | @full a w t _ _ tr s =>
    simp only [addrs, List.nodup_cons] at hd ⊢
    obtain ⟨ρ, n', h1, f⟩ := ih w (by simp; omega) t pos j tr (env.ctor t) (n + 1) s hn.append.1 ht.2 hp hd.2 (hc t)
    refine ⟨fun b => if b = a then n else ρ b, n', ?_, ?_⟩
    · rw [meaning_sptr, h1]
      simp only [Means.map, rename, if_true]
      rw [rename_congr ρ _ w]
      intro b hb'
      rw [if_neg]
      rintro rfl
      exact hd.1 hb'
    · have hle := f.le
      refine ⟨by omega, ?_, ?_⟩
      · intro b hb'
        by_cases hba : b = a
        · simp only [hba, if_true]; omega
        · have := f.within b ((List.mem_cons.1 hb').resolve_left hba)
          simp only [hba, if_false]; omega
      · intro b hb' c hc' hbc
        by_cases hba : b = a <;> by_cases hca : c = a <;> simp only [hba, hca, if_true, if_false] at hbc
        · rw [hba, hca]
        · have := f.within c ((List.mem_cons.1 hc').resolve_left hca); omega
        · have := f.within b ((List.mem_cons.1 hb').resolve_left hba); omega
        · exact f.inj b ((List.mem_cons.1 hb').resolve_left hba) c ((List.mem_cons.1 hc').resolve_left hca) hbc
  | @ref a w t _ p => exact absurd (by simp) (hn a p)

/-! ## Objects that are used once are not written as references -/

/-- The addresses of all objects written, in full or as references. -/
def occs : List Occ → List Nat
  | [] => []
  | .full a _ :: tr => a :: occs tr
  | .ref a _ :: tr => a :: occs tr

theorem occs_append (t1 t2 : List Occ) : occs (t1 ++ t2) = occs t1 ++ occs t2 := by
  induction t1 with
  | nil => rfl
  | cons o t1 ih => cases o <;> simp [occs, ih]

theorem fulls_occs (a : Nat) (tr : List Occ) (h : a ∈ fulls tr) : a ∈ occs tr := by
  induction tr with
  | nil => exact h
  | cons o tr ih =>
    cases o with
    | full b _ => simp only [fulls, occs, List.mem_cons] at h ⊢; exact h.imp id ih
    | ref b _ => simp only [fulls, occs, List.mem_cons] at h ⊢; exact .inr (ih h)

/-- No object is written more often than it is used. -/
def Sparse (env : Env) (v : Val) : Prop := ∀ t pos j tr, Shows env v t pos j tr → ∀ a, (occs tr).count a ≤ (addrs v).count a

theorem sparse_items (env : Env) (vs : List Val) (hv : ∀ v ∈ vs, Sparse env v) :
    ∀ ts pos k js tr, ShowsItems env vs ts pos k js tr → ∀ a, (occs tr).count a ≤ (addrsAll vs).count a := by
  induction vs with
  | nil => intro ts pos k js tr h a; cases h; exact Nat.le_refl _
  | cons v vs ih =>
    intro ts pos k js tr h a
    cases h with
    | cons s1 s2 =>
      have h1 := hv v (by simp) _ _ _ _ s1 a
      have h2 := ih (fun w hw => hv w (by simp [hw])) _ _ _ _ _ s2 a
      simp only [occs_append, addrsAll, List.count_append]
      omega

theorem sparse_vals (env : Env) (kvs : List (Str × Val)) (hv : ∀ p ∈ kvs, Sparse env p.2) :
    ∀ t pos k js tr, ShowsVals env kvs t pos k js tr → ∀ a, (occs tr).count a ≤ (addrsVals kvs).count a := by
  induction kvs with
  | nil => intro ts pos k js tr h a; cases h; exact Nat.le_refl _
  | cons p kvs ih =>
    intro ts pos k js tr h a
    cases h with
    | @cons key v _ _ _ _ _ _ _ _ s1 s2 =>
      have h1 := hv (key, v) (by simp) _ _ _ _ s1 a
      have h2 := ih (fun w hw => hv w (by simp [hw])) _ _ _ _ _ s2 a
      simp only [occs_append, addrsVals, List.count_append]
      simp only at h1
      omega

theorem sparse_members (env : Env) (vs : List Val) (hv : ∀ w, sizeOf w < 1 + sizeOf vs → Sparse env w) :
    ∀ ms pos k js tr, ShowsMembers env vs ms pos k js tr → ∀ a, (occs tr).count a ≤ (addrsAll vs).count a := by
  induction vs with
  | nil => intro ts pos k js tr h a; cases h; exact Nat.le_refl _
  | cons v vs ih =>
    intro ts pos k js tr h a
    have ih' := ih (fun w hw => hv w (by simp only [List.cons.sizeOf_spec]; omega))
    cases h with
    | skip _ s => simpa [addrsAll, addrs] using ih' _ _ _ _ _ s a
    | engaged _ s1 s2 =>
      have h1 := hv _ (by simp only [List.cons.sizeOf_spec, Val.present.sizeOf_spec]; omega) _ _ _ _ s1 a
      have h2 := ih' _ _ _ _ _ s2 a
      simp only [occs_append, addrsAll, addrs, List.count_append]
      omega
    | plain _ s1 s2 =>
      have h1 := hv _ (by simp only [List.cons.sizeOf_spec]; omega) _ _ _ _ s1 a
      have h2 := ih' _ _ _ _ _ s2 a
      simp only [occs_append, addrsAll, List.count_append]
      omega

theorem sparse (env : Env) : ∀ v, Sparse env v := by
  apply Val.strong
  intro v ih t pos j tr hs a
  cases hs with
  | prim => simp [occs]
  | vec s => exact sparse_items env _ (fun w hw => ih w (by have := mem_size hw; simp; omega)) _ _ _ _ _ s a
  | arr s => exact sparse_items env _ (fun w hw => ih w (by have := mem_size hw; simp; omega)) _ _ _ _ _ s a
  | tuple s => exact sparse_items env _ (fun w hw => ih w (by have := mem_size hw; simp; omega)) _ _ _ _ _ s a
  | set s => exact sparse_items env _ (fun w hw => ih w (by have := mem_size hw; simp; omega)) _ _ _ _ _ s a
  | map hperm _ s =>
    have := sparse_vals env _ (fun w hw => ih w.2 (by have := mem_size_kv (hperm.mem_iff.1 hw); simp; omega)) _ _ _ _ _ s a
    rwa [(addrsVals_perm hperm).count_eq] at this
  | dict s => exact sparse_vals env _ (fun w hw => ih w.2 (by have := mem_size_kv hw; simp; omega)) _ _ _ _ _ s a
  | alt _ s => exact ih _ (by simp; omega) _ _ _ _ s a
  | cls s => exact sparse_members env _ (fun w hw => ih w (by simp; omega)) _ _ _ _ _ s a
  | uptr s => exact ih _ (by simp) _ _ _ _ s a
  | full s =>
    have := ih _ (by simp; omega) _ _ _ _ s a
    simp only [occs_append, occs, addrs, List.count_append, List.count_cons, List.count_nil]
    omega
  | ref =>
    simp only [occs, addrs, List.count_cons, List.count_nil]
    omega

/-- When every shared object is used once, nothing is written as a reference. -/
theorem noRef_of_nodup (env : Env) {v : Val} {t : Ty} {pos : List Nat} {j : Json} {tr : List Occ} (hs : Shows env v t pos j tr) (hd : (addrs v).Nodup)
    (hg : Good [] tr) : NoRef tr := by
  intro a p hm
  obtain ⟨t1, t2, rfl⟩ := List.append_of_mem hm
  have h1 := fulls_occs a t1 hg.ref_before
  have h2 := sparse env v t pos j _ hs a
  have h3 := List.nodup_iff_count.1 hd a
  simp only [occs_append, occs, List.count_append, List.count_cons_self] at h2
  have := List.count_pos_iff.2 h1
  omega

/-! ## Integers in documents that were written -/

theorem inRange_proper (t : IntTy) (v : Int) (h : t.InRange v) : Json.proper (.num (.int v)) = true := by
  obtain ⟨w, s⟩ := t
  have e1 : i64.min = -9223372036854775808 := by decide
  have e2 : u64.max = 18446744073709551615 := by decide
  simp only [Json.proper, e1, e2, Bool.and_eq_true, decide_eq_true_eq]
  cases w <;> cases s <;> simp [IntTy.InRange, IntTy.min, IntTy.max, Width.bits] at h <;> omega

theorem leaf_proper (env : Env) (k : Prim) (p : PVal) (j : Json) (ht : PrimTy env p k) (h : serPrim env k p = .ok j) : j.proper = true := by
  cases k <;> cases p <;> first | exact ht.elim | skip
  case int.int t v => cases h; exact inRange_proper t v ht
  case enumInt.int t v => cases h; exact inRange_proper t v ht
  case flt.flt =>
    rw [serPrim_flt] at h
    split at h
    · cases h; rfl
    · cases h
  case date.date =>
    rw [serPrim_date] at h
    split at h <;> cases h
    rfl
  all_goals (cases h; rfl)

/-- Documents that show the value have no integers beyond 64 bits. -/
def ShowsProper (env : Env) (H : Heap) (v : Val) : Prop := ∀ t pos j tr, Shows env v t pos j tr → HasTy env H v t → j.proper = true

theorem proper_items (env : Env) (H : Heap) (vs : List Val) (hv : ∀ v ∈ vs, ShowsProper env H v) :
    ∀ ts pos k js tr, ShowsItems env vs ts pos k js tr → HasTys env H vs ts → Json.properAll js = true := by
  induction vs with
  | nil => intro ts pos k js tr h _; cases h; rfl
  | cons v vs ih =>
    intro ts pos k js tr h ht
    cases h with
    | cons s1 s2 =>
      simp only [HasTys] at ht
      rw [Json.properAll, hv v (by simp) _ _ _ _ s1 ht.1, ih (fun w hw => hv w (by simp [hw])) _ _ _ _ _ s2 ht.2]
      rfl

theorem proper_vals (env : Env) (H : Heap) (kvs : List (Str × Val)) (hv : ∀ p ∈ kvs, ShowsProper env H p.2) :
    ∀ t pos k js tr, ShowsVals env kvs t pos k js tr → (∀ p ∈ kvs, HasTy env H p.2 t) → Json.properFields js = true := by
  induction kvs with
  | nil => intro ts pos k js tr h _; cases h; rfl
  | cons p kvs ih =>
    intro t pos k js tr h ht
    cases h with
    | @cons key v _ _ _ _ _ _ _ _ s1 s2 =>
      rw [Json.properFields, hv (key, v) (by simp) _ _ _ _ s1 (ht (key, v) (by simp)), ih (fun w hw => hv w (by simp [hw])) _ _ _ _ _ s2 (fun w hw => ht w (by simp [hw]))]
      rfl

theorem proper_members (env : Env) (H : Heap) (vs : List Val) (hv : ∀ w, sizeOf w < 1 + sizeOf vs → ShowsProper env H w) :
    ∀ ms pos k js tr, ShowsMembers env vs ms pos k js tr → MembersTy env H vs ms → Json.properFields js = true := by
  induction vs with
  | nil => intro ts pos k js tr h _; cases h; rfl
  | cons v vs ih =>
    intro ts pos k js tr h ht
    have ih' := ih (fun w hw => hv w (by simp only [List.cons.sizeOf_spec]; omega))
    cases h with
    | skip _ s => rw [MembersTy_cons] at ht; exact ih' _ _ _ _ _ s ht.2
    | @engaged w _ m _ _ _ _ _ _ _ hk s1 s2 =>
      have hfield : fieldOf m.kind (.present w) = .here w := by rw [hk]; rfl
      rw [MembersTy_cons, hfield] at ht
      rw [Json.properFields, hv _ (by simp only [List.cons.sizeOf_spec, Val.present.sizeOf_spec]; omega) _ _ _ _ s1 ht.1, ih' _ _ _ _ _ s2 ht.2]
      rfl
    | @plain _ _ m _ _ _ _ _ _ _ hk s1 s2 =>
      have hfield : fieldOf m.kind v = .here v := by
        cases hkk : m.kind <;> first | exact absurd hkk hk | rfl
      rw [MembersTy_cons, hfield] at ht
      rw [Json.properFields, hv _ (by simp only [List.cons.sizeOf_spec]; omega) _ _ _ _ s1 ht.1, ih' _ _ _ _ _ s2 ht.2]
      rfl

theorem showsProper (env : Env) (H : Heap) : ∀ v, ShowsProper env H v := by
  apply Val.strong
  intro v ih t pos j tr hs ht
  cases hs with
  | prim h => exact leaf_proper env _ _ _ ht h
  | vec s => exact proper_items env H _ (fun w hw => ih w (by have := mem_size hw; simp; omega)) _ _ _ _ _ s (HasTys_replicate _ _ _ _ ht)
  | arr s =>
    obtain ⟨rfl, ht⟩ := ht
    exact proper_items env H _ (fun w hw => ih w (by have := mem_size hw; simp; omega)) _ _ _ _ _ s (HasTys_replicate _ _ _ _ ht)
  | tuple s => exact proper_items env H _ (fun w hw => ih w (by have := mem_size hw; simp; omega)) _ _ _ _ _ s ht
  | set s => exact proper_items env H _ (fun w hw => ih w (by have := mem_size hw; simp; omega)) _ _ _ _ _ s (HasTys_replicate _ _ _ _ ht.1)
  | map hperm _ s =>
    have hk := (ValsTy_iff _ _ _ _).1 ht.1
    exact proper_vals env H _ (fun w hw => ih w.2 (by have := mem_size_kv (hperm.mem_iff.1 hw); simp; omega)) _ _ _ _ _ s (fun w hw => hk w (hperm.mem_iff.1 hw))
  | dict s =>
    exact proper_vals env H _ (fun w hw => ih w.2 (by have := mem_size_kv hw; simp; omega)) _ _ _ _ _ s ((ValsTy_iff _ _ _ _).1 ht)
  | alt h s =>
    obtain ⟨t', h1, h2⟩ := ht
    rw [h] at h1
    cases h1
    exact ih _ (by simp; omega) _ _ _ _ s h2
  | cls s => exact proper_members env H _ (fun w hw => ih w (by simp; omega)) _ _ _ _ _ s ht
  | uptr s => exact ih _ (by simp) _ _ _ _ s ht
  | full s => exact ih _ (by simp; omega) _ _ _ _ s ht.2
  | ref => rfl

end Verif.Core
