import Verif.Describe
import Verif.RoundTrip
import Verif.Demo
import Mathlib.Data.List.Nodup

/-!
# C78: enumerations described with Boost.Describe

Specification: membership in the list of enumerators.
-/

namespace Verif.Props
open Verif.Core Verif.EnumConv

/-- The names of the enumerators are different identifiers: no name has a NUL character. -/
structure Identifiers (table : Table) : Prop where
  distinct : (table.map (·.2)).Nodup
  plain : ∀ n ∈ table.map (·.2), 0 ∉ n

theorem describedValue_iff (table : Table) (h : (table.map (·.2)).Nodup) (n : Str) (v : Int) : describedValue table n = some v ↔ (v, n) ∈ table := by
  induction table with
  | nil => simp [describedValue]
  | cons item rest ih =>
    obtain ⟨v0, n0⟩ := item
    rw [List.map_cons, List.nodup_cons] at h
    rw [describedValue, List.mem_cons, Prod.mk.injEq]
    split
    · rename_i he
      change n0 = n at he
      subst he
      constructor
      · intro hv
        cases hv
        exact .inl ⟨rfl, rfl⟩
      · rintro (⟨rfl, -⟩ | hm)
        · rfl
        · exact absurd (List.mem_map_of_mem (f := (·.2)) hm) h.1
    · rename_i he
      rw [ih h.2]
      constructor
      · exact .inr
      · rintro (⟨-, rfl⟩ | hm)
        · exact absurd rfl he
        · exact hm

theorem describedName_spec (table : Table) (v : Int) (found : Str) :
    ((∀ n, (v, n) ∉ table) ∧ describedName table v found = found) ∨
    ∃ before n after, table = before ++ (v, n) :: after ∧ (∀ n', (v, n') ∉ after) ∧ describedName table v found = n := by
  induction table generalizing found with
  | nil => exact .inl ⟨by simp, rfl⟩
  | cons item rest ih =>
    obtain ⟨v0, n0⟩ := item
    rw [describedName]
    rcases ih (if v0 = v then n0 else found) with ⟨h1, h2⟩ | ⟨before, n, after, h1, h2, h3⟩
    · by_cases he : v0 = v
      · subst he
        rw [if_pos rfl] at h2
        exact .inr ⟨[], n0, rest, rfl, h1, by simpa using h2⟩
      · rw [if_neg he] at h2
        refine .inl ⟨fun n hn => ?_, by simpa [he] using h2⟩
        rcases List.mem_cons.1 hn with hn | hn
        · cases hn
          exact he rfl
        · exact h1 n hn
    · exact .inr ⟨(v0, n0) :: before, n, after, by rw [h1]; rfl, h2, h3⟩

theorem cstr_split (s : Str) (h : (0 : UInt8) ∈ s) : ∃ rest, s = cstr s ++ 0 :: rest := by
  induction s with
  | nil => cases h
  | cons c s ih =>
    by_cases hc : c = 0
    · subst hc
      exact ⟨s, by simp [cstr]⟩
    · obtain ⟨rest, hr⟩ := ih (by
        rcases List.mem_cons.1 h with h | h
        · exact absurd h.symm hc
        · exact h)
      have hcons : cstr (c :: s) = c :: cstr s := by simp [cstr, hc]
      exact ⟨rest, by rw [hcons, List.cons_append, ← hr]⟩

theorem enumName_skip (l r : Table) (v : Int) (h : ∀ n, (v, n) ∉ l) : enumName (l ++ r) v = enumName r v := by
  induction l with
  | nil => rfl
  | cons item l ih =>
    obtain ⟨v0, n0⟩ := item
    rw [List.cons_append, enumName, if_neg, ih fun n hn => h n (by simp [hn])]
    rintro rfl
    exact h n0 (by simp)

theorem enumValue_described (table : Table) (s : Str) : enumValue table s = describedValue table s := by
  induction table with
  | nil => rfl
  | cons item l ih => rw [enumValue, describedValue, ih]

/-- **C78 (partial).** A declared value is written as the last of its names, and is read back by both readers.

Missing: values that are not declared (`C78_undeclared`). -/
theorem C78_roundtrip_partial (table : Table) (hid : Identifiers table) (v : Int) (hv : ∃ n, (v, n) ∈ table) :
    ∃ before n after, table = before ++ (v, n) :: after ∧ (∀ n', (v, n') ∉ after) ∧ writeDescribed table v = .str n ∧
      readDescribed table (.str n) = some v ∧ parseDescribed table n = some v := by
  rcases describedName_spec table v [] with ⟨h1, -⟩ | ⟨before, n, after, h1, h2, h3⟩
  · obtain ⟨n, hn⟩ := hv
    exact absurd hn (h1 n)
  · have hm : (v, n) ∈ table := by rw [h1]; simp
    have hr : describedValue table (cstr n) = some v := by
      rw [cstr_eq n (hid.plain n (List.mem_map_of_mem (f := (·.2)) hm)), describedValue_iff table hid.distinct]
      exact hm
    exact ⟨before, n, after, h1, h2, by rw [writeDescribed, h3], hr, hr⟩

/-- **C78.** Exactly what is read: the string up to its first NUL character is the name of an enumerator. The two readers agree. -/
theorem C78_read_exact (table : Table) (hid : Identifiers table) (v : Int) :
    (∀ j, readDescribed table j = some v ↔ ∃ n rest, (v, n) ∈ table ∧ (j = .str n ∨ j = .str (n ++ 0 :: rest))) ∧
    ∀ s, parseDescribed table s = readDescribed table (.str s) := by
  refine ⟨fun j => ?_, fun s => rfl⟩
  constructor
  · intro h
    cases j with
    | str s =>
      rw [readDescribed, describedValue_iff table hid.distinct] at h
      by_cases h0 : (0 : UInt8) ∈ s
      · obtain ⟨rest, hrest⟩ := cstr_split s h0
        exact ⟨cstr s, rest, h, .inr (by rw [← hrest])⟩
      · exact ⟨s, [], by rwa [cstr_eq s h0] at h, .inl rfl⟩
    | _ => cases h
  · rintro ⟨n, rest, hm, hj⟩
    have hn := hid.plain n (List.mem_map_of_mem (f := (·.2)) hm)
    have hc : cstr (n ++ 0 :: rest) = n := by
      unfold cstr
      rw [List.takeWhile_append_of_pos]
      · simp
      · intro a ha
        simp only [decide_eq_true_eq, ne_eq]
        rintro rfl
        exact hn ha
    rcases hj with rfl | rfl
    · rw [readDescribed, cstr_eq n hn, describedValue_iff table hid.distinct]
      exact hm
    · rw [readDescribed, hc, describedValue_iff table hid.distinct]
      exact hm

/-- **C78.** For documents without NUL characters, a described enumeration is written and read like an enumeration with the
converter of enum_utility.hpp and the same enumerators in reverse order (C18), so that what is proved of types with `enumStr` holds of
types with described enumerations. -/
theorem C78_like_converter (env : Env) (table : Table) (hid : Identifiers table) :
    (∀ v, serPrim env (.enumStr table.reverse) (.int v) = .ok (writeDescribed table v)) ∧
    ∀ s, 0 ∉ s → enumValue table.reverse s = readDescribed table (.str s) ∧ enumValue table.reverse s = parseDescribed table s := by
  refine ⟨fun v => ?_, fun s hs => ?_⟩
  · have : enumName table.reverse v = describedName table v [] := by
      rcases describedName_spec table v [] with ⟨h1, h2⟩ | ⟨before, n, after, h1, h2, h3⟩
      · rw [h2, ← List.append_nil table.reverse, enumName_skip _ _ _ fun n hn => h1 n (List.mem_reverse.1 hn), enumName]
      · rw [h3, h1, List.reverse_append, List.reverse_cons, List.append_assoc, enumName_skip _ _ _ fun n hn => h2 n (List.mem_reverse.1 hn)]
        simp [enumName]
    show LeafSer.ok (.str (enumName table.reverse v)) = _
    rw [this, writeDescribed]
  · have : enumValue table.reverse s = describedValue table (cstr s) := by
      rw [enumValue_described, cstr_eq s hs]
      refine Option.ext fun v => ?_
      rw [describedValue_iff table hid.distinct, describedValue_iff table.reverse (by rw [List.map_reverse]; exact List.nodup_reverse.2 hid.distinct), List.mem_reverse]
    exact ⟨this, this⟩

/-- **C78.** If no two enumerators have the same value, then the order does not matter either. -/
theorem C78_no_aliases (table : Table) (hv : (table.map (·.1)).Nodup) (v : Int) : writeDescribed table v = .str (enumName table v) := by
  rw [writeDescribed]
  rcases describedName_spec table v [] with ⟨h1, h2⟩ | ⟨before, n, after, h1, h2, h3⟩
  · rw [h2, ← List.append_nil table, enumName_skip _ _ _ h1, enumName]
  · rw [h3, h1, enumName_skip]
    · simp [enumName]
    · intro n' hn
      rw [h1, List.map_append, List.nodup_append] at hv
      exact hv.2.2 v (List.mem_map_of_mem (f := (·.1)) hn) v (by simp) rfl

/-- **C78, negation.** A value that is not declared is written as an empty string without an error, and that is refused by both
readers. -/
theorem C78_undeclared (table : Table) (hid : Identifiers table) (hne : [] ∉ table.map (·.2)) (v : Int) (hv : ∀ n, (v, n) ∉ table) :
    writeDescribed table v = .str [] ∧ readDescribed table (writeDescribed table v) = none ∧ parseDescribed table [] = none := by
  have h1 : writeDescribed table v = .str [] := by
    rw [writeDescribed]
    rcases describedName_spec table v [] with ⟨-, h2⟩ | ⟨before, n, after, h1, -, -⟩
    · rw [h2]
    · exact absurd (by rw [h1]; simp) (hv n)
  have h2 : describedValue table (cstr []) = none := by
    refine Option.eq_none_iff_forall_ne_some.2 fun w hw => ?_
    rw [describedValue_iff table hid.distinct] at hw
    exact hne (List.mem_map_of_mem (f := (·.2)) hw)
  exact ⟨h1, by rw [h1]; exact h2, h2⟩

/-- `BOOST_DESCRIBE_ENUM(Side, Left, Right)` of test/boost.cpp:33, with an alias. -/
def sides : Table := [(1, lit "Left"), (2, lit "Right"), (1, lit "West")]

theorem sides_identifiers : Identifiers sides := ⟨by decide +kernel, by decide +kernel⟩

example : writeDescribed sides 1 = .str (lit "West") ∧ writeDescribed sides 2 = .str (lit "Right") ∧ enumName sides 1 = lit "Left" := ⟨rfl, rfl, rfl⟩

example : ∃ before n after, sides = before ++ (1, n) :: after ∧ (∀ n', (1, n') ∉ after) ∧ writeDescribed sides 1 = .str n ∧
    readDescribed sides (.str n) = some 1 ∧ parseDescribed sides n = some 1 :=
  C78_roundtrip_partial sides sides_identifiers 1 ⟨lit "Left", by decide +kernel⟩

/-- **C78, negation.** A string that is no name of an enumerator is accepted. The converter of enum_utility.hpp refuses it. -/
theorem C78_nul_accepted : ∃ s, (∀ v, (v, s) ∉ sides) ∧ readDescribed sides (.str s) = some 1 ∧ parseDescribed sides s = some 1 ∧ enumValue sides s = none :=
  ⟨lit "Left" ++ 0 :: lit "over", by simp [sides, lit], rfl, rfl, rfl⟩

example : ∃ n rest, ((2 : Int), n) ∈ sides ∧ ((Json.str (lit "Right" ++ [0])) = .str n ∨ Json.str (lit "Right" ++ [0]) = .str (n ++ 0 :: rest)) :=
  ((C78_read_exact sides sides_identifiers 2).1 _).1 rfl

example : enumValue sides.reverse (lit "Right") = readDescribed sides (.str (lit "Right")) :=
  ((C78_like_converter Demo.env sides sides_identifiers).2 _ (by decide +kernel)).1

example : writeDescribed [(0, lit "Diamonds"), (1, lit "Hearts")] 1 = .str (lit "Hearts") := C78_no_aliases _ (by decide) 1

example : writeDescribed sides 7 = .str [] ∧ readDescribed sides (writeDescribed sides 7) = none ∧ parseDescribed sides [] = none :=
  C78_undeclared sides sides_identifiers (by decide +kernel) 7 (by simp [sides])

/-- `Suit` of test/boost.cpp:25-34. -/
def suits : Table := [(0, lit "Diamonds"), (1, lit "Hearts"), (2, lit "Clubs"), (3, lit "Spades")]

/-- The expectations of test/boost.cpp:39-64 for `Suit`. -/
example : (∀ x ∈ suits, writeDescribed suits x.1 = .str x.2 ∧ readDescribed suits (.str x.2) = some x.1 ∧ parseDescribed suits x.2 = some x.1) ∧
    readDescribed suits (.num (.int 0)) = none ∧ readDescribed suits (.num (.int 3)) = none := by
  refine ⟨?_, rfl, rfl⟩
  intro x hx
  simp only [suits, List.mem_cons, List.not_mem_nil, or_false] at hx
  rcases hx with rfl | rfl | rfl | rfl <;> exact ⟨rfl, rfl, rfl⟩

end Verif.Props
