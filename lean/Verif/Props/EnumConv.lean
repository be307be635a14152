import Verif.EnumConv

/-!
# Property C18: enumeration names

Specification: positions in the table. `At t i v n` says that entry number `i` is `(v, n)`.
-/

namespace Verif.Props
open Verif.EnumConv

/-- Entry `i` of the table is `(v, n)`. -/
def At (t : Table) (i : Nat) (v : Int) (n : Str) : Prop := t[i]? = some (v, n)

/-- **C18.** Reading a text yields the value of the first entry with that name, and is rejected iff the
table has no entry with that name. -/
theorem C18_read_first (t : Table) (n : Str) :
    (∀ v, enumValue t n = some v ↔ ∃ i, At t i v n ∧ ∀ j < i, ∀ w, ¬ At t j w n) ∧
    (enumValue t n = none ↔ ∀ i v, ¬ At t i v n) := by
  unfold At
  induction t with
  | nil => simp [enumValue]
  | cons e t ih =>
    obtain ⟨v0, n0⟩ := e
    obtain ⟨ih1, ih2⟩ := ih
    by_cases h : n0 = n
    · subst h
      constructor
      · intro v
        simp only [enumValue, if_true, Option.some.injEq]
        constructor
        · rintro rfl; exact ⟨0, by simp⟩
        · rintro ⟨i, hi, hj⟩
          cases i with
          | zero => simpa using hi
          | succ i => exact absurd (by simp) (hj 0 (by omega) v0)
      · simp only [enumValue, if_true, reduceCtorEq, false_iff]
        intro hc
        exact hc 0 v0 (by simp)
    · constructor
      · intro v
        simp only [enumValue, h, if_false]
        rw [ih1]
        constructor
        · rintro ⟨i, hi, hj⟩
          refine ⟨i + 1, by simpa using hi, ?_⟩
          intro j hj' w
          cases j with
          | zero => simp [h]
          | succ j => simpa using hj j (by omega) w
        · rintro ⟨i, hi, hj⟩
          cases i with
          | zero => simp [h] at hi
          | succ i =>
            refine ⟨i, by simpa using hi, ?_⟩
            intro j hj' w
            simpa using hj (j + 1) (by omega) w
      · simp only [enumValue, h, if_false]
        rw [ih2]
        constructor
        · intro hc i v
          cases i with
          | zero => simp [h]
          | succ i => simpa using hc i v
        · intro hc i v
          simpa using hc (i + 1) v

/-- **C18.** Writing a value yields the name of the first entry with that value, and the empty string
for a value that is not in the table. -/
theorem C18_write_first (t : Table) (v : Int) :
    (∀ i n, At t i v n → (∀ j < i, ∀ m, ¬ At t j v m) → enumName t v = n) ∧
    ((∀ i n, ¬ At t i v n) → enumName t v = []) := by
  unfold At
  induction t with
  | nil => simp [enumName]
  | cons e t ih =>
    obtain ⟨v0, n0⟩ := e
    obtain ⟨ih1, ih2⟩ := ih
    by_cases h : v0 = v
    · subst h
      constructor
      · intro i n hi hj
        cases i with
        | zero => simpa [enumName] using hi
        | succ i => exact absurd (by simp) (hj 0 (by omega) n0)
      · intro hc
        exact absurd (by simp) (hc 0 n0)
    · constructor
      · intro i n hi hj
        simp only [enumName, h, if_false]
        cases i with
        | zero => simp [h] at hi
        | succ i =>
          refine ih1 i n (by simpa using hi) ?_
          intro j hj' m
          simpa using hj (j + 1) (by omega) m
      · intro hc
        simp only [enumName, h, if_false]
        exact ih2 (fun i n => by simpa using hc (i + 1) n)

theorem toString_mem (t : Table) (v : Int) (hv : v ∈ t.map (·.1)) : (v, enumName t v) ∈ t := by
  induction t with
  | nil => simp at hv
  | cons e t ih =>
    obtain ⟨v0, n0⟩ := e
    by_cases h : v0 = v
    · simp [enumName, h]
    · simp only [enumName, h, if_false]
      refine List.mem_cons_of_mem _ (ih ?_)
      simpa [Ne.symm h] using hv

theorem fromString_of_nodup (t : Table) (hn : (t.map (·.2)).Nodup) (v : Int) (n : Str)
    (h : (v, n) ∈ t) : enumValue t n = some v := by
  induction t with
  | nil => simp at h
  | cons e t ih =>
    obtain ⟨v0, n0⟩ := e
    simp only [List.map_cons, List.nodup_cons] at hn
    rcases List.mem_cons.1 h with h | h
    · cases h; simp [enumValue]
    · have : n0 ≠ n := by
        rintro rfl
        exact hn.1 (List.mem_map.2 ⟨_, h, rfl⟩)
      simp only [enumValue, this, if_false]
      exact ih hn.2 h

/-- **C18.** With pairwise distinct names every enumerator in the table round trips (enumerators may
have several names). -/
theorem C18_enum_roundtrip (t : Table) (hn : (t.map (·.2)).Nodup) (v : Int) (hv : v ∈ t.map (·.1)) :
    enumValue t (enumName t v) = some v :=
  fromString_of_nodup t hn v _ (toString_mem t v hv)

/-- **C18.** With pairwise distinct values every name that reads as an enumerator is written again
for that enumerator. -/
theorem C18_name_roundtrip (t : Table) (hv : (t.map (·.1)).Nodup) (n : Str) (v : Int)
    (h : enumValue t n = some v) : enumName t v = n := by
  induction t with
  | nil => simp [enumValue] at h
  | cons e t ih =>
    obtain ⟨v0, n0⟩ := e
    simp only [List.map_cons, List.nodup_cons] at hv
    by_cases hn : n0 = n
    · simp only [enumValue, hn, if_true, Option.some.injEq] at h
      simp [enumName, h, hn]
    · simp only [enumValue, hn, if_false] at h
      have hmem : v ∈ t.map (·.1) := by
        obtain ⟨i, hi, -⟩ := ((C18_read_first t n).1 v).1 h
        exact List.mem_map.2 ⟨_, List.mem_of_getElem? hi, rfl⟩
      have : v0 ≠ v := by rintro rfl; exact hv.1 hmem
      simp only [enumName, this, if_false]
      exact ih hv.2 h

/-- **C18.** Distinct names are needed: two different enumerators with the same written name do not
both round trip. -/
theorem C18_same_name_loses (t : Table) (v w : Int) (hne : v ≠ w) (h : enumName t v = enumName t w) :
    ¬ (enumValue t (enumName t v) = some v ∧ enumValue t (enumName t w) = some w) := by
  rintro ⟨h1, h2⟩
  rw [h, h2] at h1
  exact hne (Option.some.inj h1).symm

/-- The enumeration of the repository's tests: 1 ↦ "first", 2 ↦ "second", plus an alias for 2. -/
def demoEnum : Table := [(1, lit "first"), (2, lit "second"), (2, lit "alias")]

example : enumValue demoEnum (enumName demoEnum 2) = some 2 :=
  C18_enum_roundtrip demoEnum (by decide +kernel) 2 (by decide +kernel)
example : enumValue demoEnum (lit "alias") = some 2 ∧ enumName demoEnum 2 = lit "second" := by decide +kernel
example : enumName (demoEnum.take 2) 2 = lit "second" :=
  C18_name_roundtrip (demoEnum.take 2) (by decide +kernel) _ _ (by decide +kernel)
example : enumValue demoEnum (lit "third") = none ∧ enumName demoEnum 3 = [] := by decide +kernel
example : ¬ (enumValue [(1, lit "x"), (2, lit "x")] (enumName [(1, lit "x"), (2, lit "x")] 1) = some 1 ∧
    enumValue [(1, lit "x"), (2, lit "x")] (enumName [(1, lit "x"), (2, lit "x")] 2) = some 2) :=
  C18_same_name_loses _ 1 2 (by decide) (by decide +kernel)

end Verif.Props
