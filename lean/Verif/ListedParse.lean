import Mathlib.Data.List.Forall2
import Verif.Listed
import Verif.UnshareOwn
import Verif.ParseBack

/-!
# The parser with members of classes in another order (C126)

The meaning of a document for the parser (`Verif.ParseSpec`) exists for both orders or for none.
-/

namespace Verif.Listed
open Verif.Core

/-- The same verdict. -/
inductive SameVerdict {α β : Type} : Means α → Means β → Prop
  | ub : SameVerdict .ub .ub
  | no : SameVerdict .no .no
  | yes (v : α) (n : Nat) (v' : β) (n' : Nat) : SameVerdict (.yes v n) (.yes v' n')

theorem SameVerdict.map {α β γ δ : Type} {r : Means α} {r' : Means β} (h : SameVerdict r r') (f : α → γ) (f' : β → δ) : SameVerdict (r.map f) (r'.map f') := by
  cases h with
  | ub => exact .ub
  | no => exact .no
  | yes v n v' n' => exact .yes ..

theorem SameVerdict.bind {α β γ δ : Type} {r : Means α} {r' : Means β} (h : SameVerdict r r') {k : α → Nat → Means γ} {k' : β → Nat → Means δ}
    (hk : ∀ v n v' n', SameVerdict (k v n) (k' v' n')) : SameVerdict (r.bind k) (r'.bind k') := by
  cases h with
  | ub => exact .ub
  | no => exact .no
  | yes v n v' n' => exact hk ..

/-- Meanings that exist for the same types. -/
def Matches (f f' : MFn) : Prop := ∀ t target n target' n', SameVerdict (f t target n) (f' t target' n')

/-- The same with names. -/
def MatchesNamed (f f' : Str × MFn) : Prop := f.1 = f'.1 ∧ Matches f.2 f'.2

section
variable {env env' : Env}

theorem manyM_matches (t : Ty) (fs fs' : List MFn) (h : List.Forall₂ Matches fs fs') (n n' : Nat) : SameVerdict (manyM env t fs n) (manyM env' t fs' n') := by
  induction h generalizing n n' with
  | nil => exact .yes ..
  | cons h _ ih => exact (h ..).bind fun v n v' n' => (ih n n').map _ _

theorem eachM_matches (ts : List Ty) (fs fs' : List MFn) (h : List.Forall₂ Matches fs fs') (tg tg' : List Val) (n n' : Nat) :
    SameVerdict (eachM env fs ts tg n) (eachM env' fs' ts tg' n') := by
  induction h generalizing ts tg tg' n n' with
  | nil =>
    cases ts with
    | nil => exact .yes ..
    | cons => simp only [eachM]; exact .no
  | cons h _ ih =>
    cases ts with
    | nil => simp only [eachM]; exact .no
    | cons t ts => exact (h ..).bind fun v n v' n' => (ih ts _ _ n n').map _ _

theorem entriesM_matches (t : Ty) (fs fs' : List (Str × MFn)) (h : List.Forall₂ MatchesNamed fs fs') (kvs kvs' : List (Str × Val)) (n n' : Nat) :
    SameVerdict (entriesM env t fs kvs n) (entriesM env' t fs' kvs' n') := by
  induction h generalizing kvs kvs' n n' with
  | nil => exact .yes ..
  | @cons f f' fs fs' h _ ih =>
    obtain ⟨k, f⟩ := f
    obtain ⟨k', f'⟩ := f'
    obtain ⟨h1, h2⟩ := h
    exact (h2 ..).bind fun v n v' n' => ih _ _ n n'

/-- A name selects the same member, at any place. -/
theorem select_perm {ms ms' : List Member} (hp : ms.Perm ms') (hd : (ms.map (·.name)).Nodup) (k : Str) :
    (memberAt ms k = none ∧ memberAt ms' k = none) ∨ ∃ i i' m, memberAt ms k = some i ∧ memberAt ms' k = some i' ∧ ms[i]? = some m ∧ ms'[i']? = some m := by
  by_cases hk : k ∈ ms.map (·.name)
  · obtain ⟨m, hm, rfl⟩ := List.mem_map.1 hk
    obtain ⟨pre, post, rfl⟩ := List.append_of_mem hm
    obtain ⟨pre', post', rfl⟩ := List.append_of_mem (hp.mem_iff.1 hm)
    exact .inr ⟨_, _, m, memberAt_at pre m post hd, memberAt_at pre' m post' ((hp.map _).nodup_iff.1 hd), by simp, by simp⟩
  · have none_of : ∀ l : List Member, k ∉ l.map (·.name) → memberAt l k = none := fun l hl => by
      rw [memberAt, List.findIdx?_eq_none_iff]
      intro m hm
      simp only [beq_eq_false_iff_ne]
      exact fun h => hl (h ▸ List.mem_map_of_mem hm)
    exact .inl ⟨none_of ms hk, none_of ms' fun h => hk ((hp.map _).mem_iff.2 h)⟩

theorem membersM_matches {ms ms' : List Member} (hp : ms.Perm ms') (hd : (ms.map (·.name)).Nodup) (fs fs' : List (Str × MFn)) (h : List.Forall₂ MatchesNamed fs fs')
    (vs vs' : List Val) (n n' : Nat) : SameVerdict (membersM env ms fs vs n) (membersM env' ms' fs' vs' n') := by
  induction h generalizing vs vs' n n' with
  | nil => exact .yes ..
  | @cons f f' fs fs' h _ ih =>
    obtain ⟨k, f⟩ := f
    obtain ⟨k', f'⟩ := f'
    obtain ⟨h1, h2⟩ := h
    cases h1
    rcases select_perm hp hd k with ⟨h1, h2⟩ | ⟨i, i', m, h1, h3, h4, h5⟩
    · simp only [membersM, h1, h2]
      exact .no
    · simp only [membersM, h1, h3, h4, h5]
      split
      · exact (h2 ..).bind fun v n v' n' => ih _ _ n n'
      · exact (h2 ..).bind fun v n v' n' => ih _ _ n n'

theorem leafMeaning_clk (hclk : env.clk = env'.clk) (p : Prim) (j : Json) : leafMeaning env p j = leafMeaning env' p j := by
  cases p <;> cases j <;> simp only [leafMeaning, desPrim, hclk]

theorem nodeM_matches (hclk : env.clk = env'.clk) (hl : Relisted env env') (hd : env.DistinctNames) (j : Json) (items items' : List MFn)
    (hi : List.Forall₂ Matches items items') (fields fields' : List (Str × MFn)) (hf : List.Forall₂ MatchesNamed fields fields') :
    Matches (nodeM env j items fields) (nodeM env' j items' fields') := by
  intro t
  induction t using Ty.rec (motive_2 := fun _ => True) with
  | prim p =>
    intro tg n tg' n'
    simp only [nodeM, leafMeaning_clk hclk]
    cases leafMeaning env' p j with
    | ub => exact .ub
    | fail => exact .no
    | ok pv => exact .yes ..
  | vec t =>
    intro tg n tg' n'
    simp only [nodeM]
    cases j <;> first | exact .no | exact (manyM_matches t items items' hi n n').map _ _
  | arr k t =>
    intro tg n tg' n'
    simp only [nodeM]
    cases j <;> first | exact .no | exact (eachM_matches _ items items' hi _ _ n n').map _ _
  | set t =>
    intro tg n tg' n'
    simp only [nodeM]
    cases j <;> first | exact .no | exact (manyM_matches t items items' hi n n').map _ _
  | map o t =>
    intro tg n tg' n'
    simp only [nodeM]
    cases j <;> first | exact .no | exact (entriesM_matches t fields fields' hf _ _ n n').map _ _
  | dict t =>
    intro tg n tg' n'
    simp only [nodeM]
    cases j <;> first | exact .no | exact (manyM_matches _ items items' hi n n').map _ _
  | tuple ts =>
    intro tg n tg' n'
    simp only [nodeM]
    cases j <;> first | exact .no | exact (eachM_matches _ items items' hi _ _ n n').map _ _
  | variant ts => intro tg n tg' n'; simp only [nodeM]; exact .no
  | cls c =>
    intro tg n tg' n'
    simp only [nodeM]
    cases j <;> first | exact .no | exact (membersM_matches (hl c) (hd c) fields fields' hf _ _ n n').map _ _
  | uptr t ih => intro tg n tg' n'; simp only [nodeM]; exact (ih ..).map _ _
  | sptr t ih => intro tg n tg' n'; simp only [nodeM]; exact (ih ..).map _ _
  | nil => trivial
  | cons => trivial

theorem items_size {j x : Json} (hx : x ∈ j.items) : sizeOf x < sizeOf j := by
  cases j with
  | arr js =>
    have := List.sizeOf_lt_of_mem (show x ∈ js from hx)
    simp only [Json.arr.sizeOf_spec]
    omega
  | _ => cases hx

theorem fields_size {j : Json} {x : Str × Json} (hx : x ∈ j.fields) : sizeOf x.2 < sizeOf j := by
  cases j with
  | obj ms =>
    have := List.sizeOf_lt_of_mem (show x ∈ ms from hx)
    obtain ⟨k, x⟩ := x
    simp only [Prod.mk.sizeOf_spec, Json.obj.sizeOf_spec] at this ⊢
    omega
  | _ => cases hx

theorem meaning_matches (hclk : env.clk = env'.clk) (hl : Relisted env env') (hd : env.DistinctNames) (j : Json) : Matches (meaning env j) (meaning env' j) := by
  generalize hs : sizeOf j = s
  induction s using Nat.strong_induction_on generalizing j with
  | _ s ih =>
    subst hs
    rw [meaning_node env j, meaning_node env' j, meaningItems_eq, meaningItems_eq, meaningFields_eq, meaningFields_eq]
    apply nodeM_matches hclk hl hd
    · rw [List.forall₂_map_left_iff, List.forall₂_map_right_iff, List.forall₂_same]
      exact fun x hx => ih _ (items_size hx) x rfl
    · rw [List.forall₂_map_left_iff, List.forall₂_map_right_iff, List.forall₂_same]
      exact fun x hx => ⟨rfl, ih _ (fields_size hx) x.2 rfl⟩

end

end Verif.Listed
