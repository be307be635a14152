import Verif.Text

/-!
# Where a text ends

The text of a value that is not a number shows where it ends, whatever follows it.
-/

namespace Verif.Text
open Verif.Core Verif.Numeric

theorem den_closed {C : NumConv} {j j' : Json} {s s' r r' : Str} (h : Den C j s) (h' : Den C j' s') (he : s ++ r = s' ++ r') (hn : jsonKind j ≠ 3) :
    j = j' ∧ s = s' ∧ r = r' := by
  have hk : jsonKind j = jsonKind j' := by
    obtain ⟨c, x, rfl, hc⟩ := h.first
    obtain ⟨c', x', rfl, hc'⟩ := h'.first
    simp only [List.cons_append, List.cons.injEq] at he
    rw [← hc, ← hc', he.1]
  cases h with
  | null =>
    cases h' with
    | null => exact ⟨rfl, rfl, List.append_cancel_left he⟩
    | _ => cases hk
  | tt =>
    cases h' with
    | tt => exact ⟨rfl, rfl, List.append_cancel_left he⟩
    | _ => cases hk
  | ff =>
    cases h' with
    | ff => exact ⟨rfl, rfl, List.append_cancel_left he⟩
    | _ => cases hk
  | num h => exact absurd rfl hn
  | str h =>
    cases h' with
    | str h' =>
      simp only [List.cons_append, List.append_assoc, List.nil_append, List.cons.injEq, true_and] at he
      obtain ⟨rfl, rfl, rfl⟩ := h.unique h' he
      exact ⟨rfl, rfl, rfl⟩
    | _ => cases hk
  | arrNil hw =>
    cases h' with
    | arrNil hw' =>
      simp only [List.cons_append, List.append_assoc, List.nil_append, List.cons.injEq, true_and] at he
      obtain ⟨rfl, he1⟩ := split_unique he hw hw' (notHead_cons (by decide) _) (notHead_cons (by decide) _)
      simp only [List.cons.injEq, true_and] at he1
      exact ⟨rfl, rfl, he1⟩
    | arr hi =>
      obtain ⟨w, x, rfl, hw', hx⟩ := items_start hi
      simp only [List.cons_append, List.append_assoc, List.nil_append, List.cons.injEq, true_and] at he
      obtain ⟨-, he1⟩ := split_unique he hw hw' (notHead_cons (by decide) _) (hx _).1
      have := (hx (93 :: r')).2 93 r (by rw [← he1])
      simp at this
    | _ => cases hk
  | arr hi =>
    cases h' with
    | arrNil hw =>
      obtain ⟨w, x, rfl, hw', hx⟩ := items_start hi
      simp only [List.cons_append, List.append_assoc, List.nil_append, List.cons.injEq, true_and] at he
      obtain ⟨-, he1⟩ := split_unique he.symm hw hw' (notHead_cons (by decide) _) (hx _).1
      have := (hx (93 :: r)).2 93 r' (by rw [← he1])
      simp at this
    | arr hi' =>
      simp only [List.cons_append, List.append_assoc, List.nil_append, List.cons.injEq, true_and] at he
      obtain ⟨rfl, rfl, rfl⟩ := items_unique (den_unique C _) hi hi' (Nat.le_refl _) he
      exact ⟨rfl, rfl, rfl⟩
    | _ => cases hk
  | objNil hw =>
    cases h' with
    | objNil hw' =>
      simp only [List.cons_append, List.append_assoc, List.nil_append, List.cons.injEq, true_and] at he
      obtain ⟨rfl, he1⟩ := split_unique he hw hw' (notHead_cons (by decide) _) (notHead_cons (by decide) _)
      simp only [List.cons.injEq, true_and] at he1
      exact ⟨rfl, rfl, he1⟩
    | obj hi =>
      obtain ⟨w, x, rfl, hw'⟩ := fields_start hi
      simp only [List.cons_append, List.append_assoc, List.nil_append, List.cons.injEq, true_and] at he
      obtain ⟨-, he1⟩ := split_unique he hw hw' (notHead_cons (by decide) _) (notHead_cons (by decide) _)
      simp at he1
    | _ => cases hk
  | obj hi =>
    cases h' with
    | objNil hw =>
      obtain ⟨w, x, rfl, hw'⟩ := fields_start hi
      simp only [List.cons_append, List.append_assoc, List.nil_append, List.cons.injEq, true_and] at he
      obtain ⟨-, he1⟩ := split_unique he.symm hw hw' (notHead_cons (by decide) _) (notHead_cons (by decide) _)
      simp at he1
    | obj hi' =>
      simp only [List.cons_append, List.append_assoc, List.nil_append, List.cons.injEq, true_and] at he
      obtain ⟨rfl, rfl, rfl⟩ := fields_unique (den_unique C _) hi hi' (Nat.le_refl _) he
      exact ⟨rfl, rfl, rfl⟩
    | _ => cases hk

theorem den_kind {C : NumConv} {j j' : Json} {s s' r r' : Str} (h : Den C j s) (h' : Den C j' s') (he : s ++ r = s' ++ r') : jsonKind j = jsonKind j' := by
  obtain ⟨c, x, rfl, hc⟩ := h.first
  obtain ⟨c', x', rfl, hc'⟩ := h'.first
  simp only [List.cons_append, List.cons.injEq] at he
  rw [← hc, ← hc', he.1]

/-- A text and a beginning of it that is a text. -/
theorem denotes_closed {C : NumConv} {j j' : Json} {s s' r : Str} (h : Denotes C j s) (h' : Denotes C j' s') (he : s = s' ++ r) (hn : jsonKind j ≠ 3) :
    j = j' ∧ Ws r := by
  obtain ⟨w1, t, w2, h1, h2, h3, rfl⟩ := h
  obtain ⟨w1', t', w2', h1', h2', h3', rfl⟩ := h'
  simp only [List.append_assoc] at he
  obtain ⟨rfl, he1⟩ := split_unique he h1 h1' (h2.notWs _) (h2'.notWs _)
  obtain ⟨rfl, rfl, rfl⟩ := den_closed h2 h2' he1 hn
  exact ⟨rfl, fun c hc => h3 c (by simp [hc])⟩

end Verif.Text
