import Verif.ParseLemmas
import Verif.ParseMore
import Verif.EvolveMore

/-!
# Parsing one document after another

The loops of the streaming parser start from what the variable contains. So the parts of two documents, one after
another, have the effect of the parts of the second document on what the first one left.
-/

namespace Verif.Core
open Verif.Numeric Verif.EnumConv Verif.PerfectHash

/-- First the one, then the other. -/
def LRes.andThen {α β : Type} (r : LRes α) (k : α → Nat → LRes β) : LRes β :=
  match r with
  | .ok v n => k v n
  | .fail => .fail
  | .threw => .threw
  | .ub => .ub

theorem withChild_andThen {α β : Type} (env : Env) (host : Host) (K : List HClass) (c : HClass) (t : Ty) (target : Val) (n : Nat) (outer : Val → Val) (f : PFn)
    (k : Val → Nat → LRes α) (k' : α → Nat → LRes β) :
    (withChild env host K c t target n outer f k).andThen k' = withChild env host K c t target n outer f fun v m => (k v m).andThen k' := by
  unfold withChild
  split
  · dsimp only
    cases f K (openP env t target n).1 (openP env t target n).2.2 <;> rfl
  · rfl

theorem withChild_same {α : Type} {env : Env} {host : Host} {K : List HClass} {c : HClass} {t : Ty} {target : Val} {n : Nat} {outer : Val → Val} {f : PFn}
    {k k' : Val → Nat → LRes α} (h : ∀ v m, k v m = k' v m) : withChild env host K c t target n outer f k = withChild env host K c t target n outer f k' := by
  rw [show k = k' from funext fun v => funext (h v)]

theorem loopVec_andThen (env : Env) (host : Host) (K : List HClass) (t : Ty) (fs fs' : List (Event × PFn)) (vs : List Val) (n : Nat) :
    loopVec env host K t (fs ++ fs') vs n = (loopVec env host K t fs vs n).andThen fun us m => loopVec env host K t fs' us m := by
  induction fs generalizing vs n with
  | nil => rfl
  | cons p fs ih =>
    obtain ⟨e, f⟩ := p
    simp only [List.cons_append, loopVec]
    split
    · split
      · rfl
      · rfl
      · exact ih _ _
    · split
      · rw [withChild_andThen]
        exact withChild_same fun v m => ih _ _
      · rfl

theorem loopSet_storage (env : Env) (host : Host) (K : List HClass) (t : Ty) (hd : direct t = none) (fs : List (Event × PFn)) (st st' vs : List Val) (n : Nat) :
    loopSet env host K t fs (st ++ st') vs n = loopSet env host K t fs st' (st.foldl (fun s v => setInsert env.less v s) vs) n := by
  induction fs generalizing st' n with
  | nil => simp only [loopSet, List.foldl_append]
  | cons p fs ih =>
    obtain ⟨e, f⟩ := p
    simp only [loopSet, hd]
    split
    · exact withChild_same fun v m => by rw [List.append_assoc]; exact ih _ _
    · rfl

theorem loopSet_andThen (env : Env) (host : Host) (K : List HClass) (t : Ty) (fs fs' : List (Event × PFn)) (st vs : List Val) (hst : direct t = none ∨ st = []) (n : Nat) :
    loopSet env host K t (fs ++ fs') st vs n = (loopSet env host K t fs st vs n).andThen fun us m => loopSet env host K t fs' [] us m := by
  induction fs generalizing st vs n with
  | nil =>
    simp only [List.nil_append, loopSet, LRes.andThen]
    rcases hst with hd | rfl
    · have := loopSet_storage env host K t hd fs' st [] vs n
      rwa [List.append_nil] at this
    · rfl
  | cons p fs ih =>
    obtain ⟨e, f⟩ := p
    simp only [List.cons_append, loopSet]
    split
    next q hq =>
      rcases hst with hd | rfl
      · rw [hd] at hq; cases hq
      · split
        · rfl
        · rfl
        · exact ih _ _ (.inr rfl) _
    next hd =>
      split
      · rw [withChild_andThen]
        exact withChild_same fun v m => ih _ _ (.inl hd) _
      · rfl

theorem loopMap_andThen (env : Env) (host : Host) (K : List HClass) (t : Ty) (fs fs' : List (Str × PFn)) (kvs : List (Str × Val)) (n : Nat) :
    loopMap env host K t (fs ++ fs') kvs n = (loopMap env host K t fs kvs n).andThen fun us m => loopMap env host K t fs' us m := by
  induction fs generalizing kvs n with
  | nil => rfl
  | cons p fs ih =>
    obtain ⟨k, f⟩ := p
    simp only [List.cons_append, loopMap]
    rw [withChild_andThen]
    exact withChild_same fun v m => ih _ _

theorem loopObj_andThen (env : Env) (host : Host) (K : List HClass) (c : Nat) (fs fs' : List (Str × PFn)) (vs : List Val) (n : Nat) :
    loopObj env host K c (fs ++ fs') vs n = (loopObj env host K c fs vs n).andThen fun us m => loopObj env host K c fs' us m := by
  induction fs generalizing vs n with
  | nil => rfl
  | cons p fs ih =>
    obtain ⟨k, f⟩ := p
    simp only [List.cons_append, loopObj]
    split
    · rfl
    · rfl
    · split
      · rfl
      · split
        · rw [withChild_andThen]
          exact withChild_same fun v m => ih _ _
        · rw [withChild_andThen]
          exact withChild_same fun v m => ih _ _

theorem withChild_rest {α : Type} {env : Env} {host : Host} {K : List HClass} {c : HClass} {t : Ty} {target : Val} {n : Nat} {outer : Val → Val} {f : PFn}
    {k : Val → Nat → LRes α} {a : α} {m : Nat} (h : withChild env host K c t target n outer f k = .ok a m) : ∃ v n', k v n' = .ok a m := by
  unfold withChild at h
  split at h
  · dsimp only at h
    split at h
    · exact ⟨_, _, h⟩
    all_goals cases h
  · cases h

theorem loopObj_len {env : Env} {host : Host} {K : List HClass} {c : Nat} {fs : List (Str × PFn)} {vs us : List Val} {n m : Nat}
    (h : loopObj env host K c fs vs n = .ok us m) : us.length = vs.length := by
  induction fs generalizing vs n with
  | nil => cases h; rfl
  | cons p fs ih =>
    obtain ⟨k, f⟩ := p
    simp only [loopObj] at h
    split at h
    · cases h
    · cases h
    · split at h
      · cases h
      · split at h
        · obtain ⟨v, n', h⟩ := withChild_rest h
          rw [ih h, List.length_set]
        · obtain ⟨v, n', h⟩ := withChild_rest h
          rw [ih h, List.length_set]

/-- The elements that were there stay in front. -/
theorem loopVec_prefix {env : Env} {host : Host} {K : List HClass} {t : Ty} {fs : List (Event × PFn)} {vs us : List Val} {n m : Nat}
    (h : loopVec env host K t fs vs n = .ok us m) : ∃ ws, us = vs ++ ws ∧ ws.length = fs.length := by
  induction fs generalizing vs n with
  | nil => cases h; exact ⟨[], by simp, rfl⟩
  | cons p fs ih =>
    obtain ⟨e, f⟩ := p
    have hnext : ∀ v m', loopVec env host K t fs (vs ++ [v]) m' = .ok us m → ∃ ws, us = vs ++ ws ∧ ws.length = fs.length + 1 := by
      intro v m' h
      obtain ⟨ws, h1, h2⟩ := ih h
      exact ⟨v :: ws, by rw [h1]; simp, by simp [h2]⟩
    simp only [loopVec] at h
    split at h
    · split at h
      · cases h
      · cases h
      · exact hnext _ _ h
    · split at h
      · obtain ⟨v, n', h⟩ := withChild_rest h
        exact hnext _ _ h
      · cases h

theorem pitems_append (env : Env) (host : Host) (js js' : List Json) : pitems env host (js ++ js') = pitems env host js ++ pitems env host js' := by
  simp [pitems_eq]

theorem pfields_append (env : Env) (host : Host) (ms ms' : List (Str × Json)) : pfields env host (ms ++ ms') = pfields env host ms ++ pfields env host ms' := by
  simp [pfields_eq]

end Verif.Core
