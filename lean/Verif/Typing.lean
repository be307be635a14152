import Verif.Write
import Verif.DateTimeLemmas

/-!
# Typed values

`HasTy` says that a value is a value of a C++ type: this is what the C++ type system guarantees, plus
non-null pointers. The heap `H` gives the type and content of each shared object, so that two shared
pointers with the same address have the same content.
-/

namespace Verif.Core
open Verif.Numeric

/-! ## Induction over values -/

/-- Strong induction over the size of a value. -/
theorem Val.strong {P : Val → Prop} (h : ∀ v, (∀ w, sizeOf w < sizeOf v → P w) → P v) : ∀ v, P v := by
  intro v
  generalize hn : sizeOf v = n
  induction n using Nat.strongRecOn generalizing v with
  | ind n ih =>
    subst hn
    exact h v fun w hw => ih (sizeOf w) hw w rfl

theorem mem_size {w : Val} {vs : List Val} (h : w ∈ vs) : sizeOf w < sizeOf vs := List.sizeOf_lt_of_mem h

theorem mem_size_kv {p : Str × Val} {kvs : List (Str × Val)} (h : p ∈ kvs) : sizeOf p.2 < sizeOf kvs := by
  have h1 := List.sizeOf_lt_of_mem h
  have : sizeOf p = 1 + sizeOf p.1 + sizeOf p.2 := by cases p; rfl
  omega

/-! ## Values of a type -/

/-- A shared heap: type and content of the object at each address. -/
abbrev Heap := Nat → Option (Ty × Val)

/-- The value is a value of the C++ type; dates lie in the range of the clock (otherwise converting them
to a time point is undefined). -/
def PrimTy (env : Env) : PVal → Prim → Prop
  | .null, .null => True
  | .bool _, .bool => True
  | .int v, .int t => t.InRange v
  | .flt f, .flt t => f.Fits t
  | .str _, .str => True
  | .bytes _, .bytes => True
  | .time t, .time => DateTime.InRep t
  | .date y m d, .date => DateTime.ValidDate y m d ∧ DateTime.InRep (DateTime.dayNumber y m d * 86400 * env.clk)
  | .int v, .enumInt t => t.InRange v
  | .int _, .enumStr _ => True
  | _, _ => False

/-- Keys in strictly ascending order. -/
def Ascending (kvs : List (Str × Val)) : Prop := (kvs.map (·.1)).Pairwise fun a b => strLess a b = true

mutual
/-- `v` is a value of type `t` with non-null pointers, in the heap `H`. -/
def HasTy (env : Env) (H : Heap) : Val → Ty → Prop
  | .prim p, .prim k => PrimTy env p k
  | .seq vs, .vec t => AllTy env H vs t
  | .tup vs, .arr n t => vs.length = n ∧ AllTy env H vs t
  | .tup vs, .tuple ts => HasTys env H vs ts
  | .set vs, .set t => AllTy env H vs t ∧ vs.Pairwise fun x y => env.less x y = true
  | .map kvs, .map _ t => ValsTy env H kvs t ∧ Ascending kvs
  | .dict kvs, .dict t => ValsTy env H kvs t
  | .alt i v, .variant ts => ∃ t, ts[i]? = some t ∧ HasTy env H v t
  | .obj vs, .cls c => MembersTy env H vs (env.members c)
  | .uptr v, .uptr t => HasTy env H v t
  | .sptr a v, .sptr t => H a = some (t, v) ∧ HasTy env H v t
  | _, _ => False

/-- All elements have the same type. -/
def AllTy (env : Env) (H : Heap) : List Val → Ty → Prop
  | [], _ => True
  | v :: vs, t => HasTy env H v t ∧ AllTy env H vs t

/-- Elements with types from a list. -/
def HasTys (env : Env) (H : Heap) : List Val → List Ty → Prop
  | [], [] => True
  | v :: vs, t :: ts => HasTy env H v t ∧ HasTys env H vs ts
  | _, _ => False

/-- All values of a map have the same type. -/
def ValsTy (env : Env) (H : Heap) : List (Str × Val) → Ty → Prop
  | [], _ => True
  | (_, v) :: kvs, t => HasTy env H v t ∧ ValsTy env H kvs t

/-- Member values: `absent` and `present` for optional members. -/
def MembersTy (env : Env) (H : Heap) : List Val → List Member → Prop
  | [], [] => True
  | v :: vs, m :: ms =>
      (match m.kind, v with
      | .optional, .absent => True
      | .optional, .present w => HasTy env H w m.ty
      | .optional, _ => False
      | _, v => HasTy env H v m.ty) ∧ MembersTy env H vs ms
  | _, _ => False
end

theorem AllTy_iff (env : Env) (H : Heap) (vs : List Val) (t : Ty) : AllTy env H vs t ↔ ∀ v ∈ vs, HasTy env H v t := by
  induction vs with
  | nil => simp [AllTy]
  | cons v vs ih => simp [AllTy, ih]

theorem ValsTy_iff (env : Env) (H : Heap) (kvs : List (Str × Val)) (t : Ty) :
    ValsTy env H kvs t ↔ ∀ p ∈ kvs, HasTy env H p.2 t := by
  induction kvs with
  | nil => simp [ValsTy]
  | cons p kvs ih => cases p; simp [ValsTy, ih]

theorem HasTys_length (env : Env) (H : Heap) (vs : List Val) (ts : List Ty) (h : HasTys env H vs ts) :
    vs.length = ts.length := by
  induction vs generalizing ts with
  | nil => cases ts <;> simp_all [HasTys]
  | cons v vs ih =>
    cases ts with
    | nil => simp [HasTys] at h
    | cons t ts => simp only [HasTys] at h; simp [ih ts h.2]

/-- Typing of a vector or array as typing of its elements one by one. -/
theorem HasTys_replicate (env : Env) (H : Heap) (vs : List Val) (t : Ty) (h : AllTy env H vs t) :
    HasTys env H vs (List.replicate vs.length t) := by
  induction vs with
  | nil => simp [HasTys]
  | cons v vs ih => simp only [AllTy] at h; simp [HasTys, List.replicate_succ, h.1, ih h.2]

/-! ## Iteration order -/

/-- Unordered maps iterate over each of their keys exactly once (standard library contract). -/
def Env.Fair (env : Env) : Prop := ∀ segs keys, keys.Nodup → (env.order segs keys).Perm keys

theorem strLess_irrefl (a : Str) : strLess a a = false := by
  induction a with
  | nil => rfl
  | cons c a ih => simp [strLess, ih]

theorem strLess_trans (a b c : Str) (h1 : strLess a b = true) (h2 : strLess b c = true) : strLess a c = true := by
  induction a generalizing b c with
  | nil =>
    cases c with
    | nil => cases b <;> simp_all [strLess]
    | cons => rfl
  | cons x a ih =>
    cases b with
    | nil => simp [strLess] at h1
    | cons y b =>
      cases c with
      | nil => simp [strLess] at h2
      | cons z c =>
        simp only [strLess] at *
        by_cases h : x.toNat < y.toNat
        · by_cases h' : y.toNat < z.toNat
          · rw [if_pos (by omega)]
          · rw [if_neg h'] at h2
            by_cases h'' : z.toNat < y.toNat
            · simp [h''] at h2
            · rw [if_pos (by omega)]
        · rw [if_neg h] at h1
          by_cases hyx : y.toNat < x.toNat
          · simp [hyx] at h1
          · rw [if_neg hyx] at h1
            by_cases h' : y.toNat < z.toNat
            · rw [if_pos (by omega)]
            · rw [if_neg h'] at h2
              by_cases h'' : z.toNat < y.toNat
              · simp [h''] at h2
              · rw [if_neg h''] at h2
                rw [if_neg (by omega), if_neg (by omega)]
                exact ih b c h1 h2

theorem Ascending.nodup {kvs : List (Str × Val)} (h : Ascending kvs) : (kvs.map (·.1)).Nodup := by
  refine List.Pairwise.imp ?_ h
  intro a b hab heq
  subst heq
  rw [strLess_irrefl] at hab
  cases hab

theorem inOrder_map {α β : Type} (g : Str × α → β) (keys : List Str) (kvs : List (Str × α)) :
    inOrder keys (kvs.map fun p => (p.1, g p)) = (inOrder keys kvs).map fun p => (p.1, g p) := by
  have hl : ∀ k, (kvs.map fun p => (p.1, g p)).lookup k = (kvs.lookup k).map fun a => g (k, a) := by
    intro k
    induction kvs with
    | nil => rfl
    | cons p kvs ih =>
      obtain ⟨k', a⟩ := p
      by_cases h : k = k'
      · subst h; simp [List.lookup]
      · simp only [List.map_cons, List.lookup, ih]
        have : (k == k') = false := by simpa using h
        rw [this]
  unfold inOrder
  rw [List.map_filterMap]
  congr 1
  funext k
  rw [hl]
  cases kvs.lookup k <;> rfl

theorem lookup_of_mem {α : Type} {k : Str} {a : α} {kvs : List (Str × α)} (hn : (kvs.map (·.1)).Nodup)
    (h : (k, a) ∈ kvs) : kvs.lookup k = some a := by
  induction kvs with
  | nil => simp at h
  | cons p kvs ih =>
    obtain ⟨k', a'⟩ := p
    simp only [List.map_cons, List.nodup_cons] at hn
    rcases List.mem_cons.1 h with h | h
    · cases h; simp [List.lookup]
    · have hne : k ≠ k' := by
        intro heq
        exact hn.1 (heq ▸ List.mem_map.2 ⟨(k, a), h, rfl⟩)
      have : (k == k') = false := by simpa using hne
      simp [List.lookup, this, ih hn.2 h]

theorem inOrder_self {α : Type} (kvs : List (Str × α)) (hn : (kvs.map (·.1)).Nodup) :
    inOrder (kvs.map (·.1)) kvs = kvs := by
  have key : ∀ l : List (Str × α), (∀ p ∈ l, p ∈ kvs) →
      ((l.map (·.1)).filterMap fun k => (kvs.lookup k).map fun a => (k, a)) = l := by
    intro l
    induction l with
    | nil => intro _; rfl
    | cons p l ih =>
      intro h
      obtain ⟨k, a⟩ := p
      have := lookup_of_mem hn (h (k, a) (by simp))
      simp only [List.map_cons, List.filterMap_cons, this, Option.map_some]
      rw [ih (fun p hp => h p (by simp [hp]))]
  exact key kvs (fun p hp => hp)

theorem inOrder_perm {α : Type} {keys : List Str} {kvs : List (Str × α)} (hn : (kvs.map (·.1)).Nodup)
    (hp : keys.Perm (kvs.map (·.1))) : (inOrder keys kvs).Perm kvs := by
  have h1 : (inOrder keys kvs).Perm (inOrder (kvs.map (·.1)) kvs) := List.Perm.filterMap _ hp
  rwa [inOrder_self kvs hn] at h1

theorem iterate_perm {α : Type} (env : Env) (hf : env.Fair) (ordered : Bool) (segs : List Seg) (kvs : List (Str × α))
    (hn : (kvs.map (·.1)).Nodup) : (iterate env ordered segs kvs).Perm kvs := by
  unfold iterate
  split
  · exact List.Perm.refl _
  · exact inOrder_perm hn (hf _ _ hn)

theorem iterate_map {α β : Type} (env : Env) (ordered : Bool) (segs : List Seg) (g : Str × α → β)
    (kvs : List (Str × α)) :
    iterate env ordered segs (kvs.map fun p => (p.1, g p)) = (iterate env ordered segs kvs).map fun p => (p.1, g p) := by
  unfold iterate
  split
  · rfl
  · rw [inOrder_map]; simp [Function.comp_def]

theorem serVals_eq (env : Env) (kvs : List (Str × Val)) (t : Ty) :
    serVals env kvs t = kvs.map fun p => (p.1, ser env p.2 t) := by
  induction kvs with
  | nil => simp [serVals]
  | cons p kvs ih => cases p; simp [serVals, ih]

theorem wrVals_eq (env : Env) (kvs : List (Str × Val)) (t : Ty) :
    wrVals env kvs t = kvs.map fun p => (p.1, wr env p.2 t) := by
  induction kvs with
  | nil => simp [wrVals]
  | cons p kvs ih => cases p; simp [wrVals, ih]

end Verif.Core
