import Verif.NumberText
import Verif.Strtod

/-!
# C65: `parse_number`
-/

namespace Verif.Props
open Verif.Text Verif.Core Verif.Numeric

/-- C65, integers: `parse_number` accepts exactly the texts made of digits, with a minus in front only for signed
types, that denote a number of the type, and stores that number. -/
theorem C65_int_exact (t : IntTy) (s : Str) (v : Int) :
    parseIntText t s = some v ↔
      ∃ (neg : Bool) (ds : Str), s = (if neg then [45] else []) ++ ds ∧ ds ≠ [] ∧ (∀ c ∈ ds, 48 ≤ c.toNat ∧ c.toNat ≤ 57) ∧
        (neg = true → t.signed = true) ∧ v = (if neg then -(digitsValue ds : Int) else digitsValue ds) ∧ t.min ≤ v ∧ v ≤ t.max := by
  rw [parseIntText_iff]
  constructor
  · rintro ⟨neg, ds, h1, h2, h3, h4, h5⟩
    exact ⟨neg, ds, h1, h2.1, fun c hc => by have := List.all_eq_true.mp h2.2 c hc; simpa [isDigit] using this, h3, h4, h5.1, h5.2⟩
  · rintro ⟨neg, ds, h1, h2, h3, h4, h5, h6, h7⟩
    exact ⟨neg, ds, h1, ⟨h2, List.all_eq_true.mpr fun c hc => by simpa [isDigit] using h3 c hc⟩, h4, h5, h6, h7⟩

example : parseIntText ⟨.w16, true⟩ (lit "-32768") = some (-32768) ∧ parseIntText ⟨.w16, true⟩ (lit "32768") = none ∧
    parseIntText ⟨.w16, false⟩ (lit "-1") = none ∧ parseIntText ⟨.w16, true⟩ (lit "12 ") = none ∧
    parseIntText ⟨.w16, true⟩ (lit "+1") = none ∧ parseIntText ⟨.w16, true⟩ (lit "007") = some 7 := by decide +kernel

/-- C65, integers: what `std::to_chars` and RapidJSON write for an integer of the type is read as that integer. -/
theorem C65_int_back (t : IntTy) (v : Int) (h : t.InRange v) : parseIntText t (decimalInt v) = some v := by
  rw [parseIntText_iff]
  by_cases hv : v < 0
  · refine ⟨true, decimal v.natAbs, by simp [decimalInt, hv, minus], ⟨decimal_ne_nil _, decimal_digits _⟩, ?_, ?_, h⟩
    · intro _
      cases hs : t.signed with
      | true => rfl
      | false =>
          have : t.min = 0 := by simp [IntTy.min, hs]
          have := h.1
          omega
    · simp only [signed, if_true, digitsValue_decimal]
      omega
  · refine ⟨false, decimal v.natAbs, by simp [decimalInt, hv, minus], ⟨decimal_ne_nil _, decimal_digits _⟩, by simp, ?_, h⟩
    simp only [signed, Bool.false_eq_true, if_false, digitsValue_decimal]
    omega

example : IntTy.InRange ⟨.w8, true⟩ (-128) ∧ decimalInt (-128) = lit "-128" := by decide +kernel

/-- C65 (refutation), floating-point numbers: the outcome depends on the memory behind the view. The view `1` is
accepted in front of a comma and refused in front of a digit. -/
theorem C65_float_reads_beyond (conv : Str → Flt) :
    (parseFloatText conv (lit "1") (lit ",2")).1 = true ∧ (parseFloatText conv (lit "1") (lit "5")).1 = false := by
  constructor <;> rfl

/-- C65 (refutation), floating-point numbers: texts that are no JSON numbers are accepted, among them the empty one,
which stores zero. -/
theorem C65_float_accepts_others (conv : Str → Flt) :
    parseFloatText conv [] [0] = (true, .zero false) ∧
      ∀ s ∈ [lit " 1", lit "+1", lit ".5", lit "5.", lit "007", lit "0x1Fp3", lit "inf", lit "-Infinity", lit "nan", lit "NaN(8)"],
        (parseFloatText conv s [0]).1 = true := by
  refine ⟨rfl, ?_⟩
  intro s hs
  simp only [List.mem_cons, List.not_mem_nil, or_false] at hs
  rcases hs with rfl | rfl | rfl | rfl | rfl | rfl | rfl | rfl | rfl | rfl <;> rfl

/-- C65, floating-point numbers: a JSON number is accepted and converted as a whole, provided that the memory behind it
does not go on with a letter, a digit, a point or an underscore. Missing: views for which this does not hold (see
`C65_float_reads_beyond`) and that other texts are refused (see `C65_float_accepts_others`). -/
theorem C65_float_json_partial (conv : Str → Flt) (C : NumConv) (n : JsonNum) (s after : Str) (hs : NumText C n s)
    (ha : ∀ c r, cstr after = c :: r → continues c = false) : parseFloatText conv s after = (true, conv s) := by
  have key : ∀ (neg : Bool) (i fr ex : Str), IntPart i → FracPart fr → ExpPart ex → s = minus neg ++ i ++ fr ++ ex →
      parseFloatText conv s after = (true, conv s) := by
    intro neg i fr ex hi hf he heq
    have hnul : cstr (s ++ after) = s ++ cstr after := by
      unfold cstr
      rw [List.takeWhile_append_of_pos]
      intro c hc
      simpa using hs.noNul c hc
    have hlen : strtodLen (s ++ cstr after) = s.length := by rw [heq]; exact strtodLen_full neg hi hf he ha
    have hne : s.length ≠ 0 := by
      obtain ⟨c, r, rfl, _⟩ := hs.first
      simp
    simp only [parseFloatText, hnul, hlen, if_neg hne, List.take_left, beq_self_eq_true]
  cases hs with
  | int neg i hi hv => exact key neg i [] [] hi (.inl rfl) (.inl rfl) (by simp)
  | big neg i f hi hv hc => exact key neg i [] [] hi (.inl rfl) (.inl rfl) (by simp)
  | real neg i fr ex f hi hf he hne hc => exact key neg i fr ex hi hf he rfl

example : ∃ C : NumConv, NumText C (.dbl (.fin true 3 (-1))) (lit "-1.5") :=
  ⟨⟨fun _ => [], fun _ => some (.fin true 3 (-1))⟩, NumText.real true (lit "1") (lit ".5") [] _ (.inr ⟨49, [], rfl, rfl, by decide, rfl⟩)
    (.inr ⟨lit "5", rfl, by decide, by decide⟩) (.inl rfl) (by decide) rfl⟩

theorem longest_unique {P : Str → Prop} {s : Str} {n m : Nat} (hn : Longest P s n) (hm : Longest P s m) : n = m := by
  obtain ⟨hn1, hn2⟩ := hn
  obtain ⟨hm1, hm2⟩ := hm
  rcases hn2 with ⟨rfl, hn2⟩ | ⟨a, b, ha, hpa, rfl⟩ <;> rcases hm2 with ⟨rfl, hm2⟩ | ⟨a', b', ha', hpa', rfl⟩
  · rfl
  · exact absurd hpa' (hn2 _ _ ha')
  · exact absurd hpa (hm2 _ _ ha)
  · exact Nat.le_antisymm (hm1 _ _ ha hpa) (hn1 _ _ ha' hpa')

/-- C65, floating-point numbers: exactly which views are accepted, whatever is behind them, and what is stored. With the
grammar of `strtod` (`Strtod`): accepted if the view is as long as the longest prefix of the C string that starts where the
view starts; what is stored is the number of that prefix, or zero if there is none. -/
theorem C65_float_exact_partial (conv : Str → Flt) (s after : Str) :
    ((parseFloatText conv s after).1 = true ↔ Longest Strtod (cstr (s ++ after)) s.length) ∧
    (∀ a b, cstr (s ++ after) = a ++ b → Strtod a → Longest Strtod (cstr (s ++ after)) a.length → (parseFloatText conv s after).2 = conv a) ∧
    ((∀ a b, cstr (s ++ after) = a ++ b → ¬ Strtod a) → (parseFloatText conv s after).2 = .zero false) := by
  have hl := strtodLen_longest (cstr (s ++ after))
  refine ⟨?_, ?_, ?_⟩
  · simp only [parseFloatText, beq_iff_eq]
    exact ⟨fun h => h ▸ hl, fun h => longest_unique hl h⟩
  · intro a b hab ha hla
    have hn := longest_unique hl hla
    have hpos : strtodLen (cstr (s ++ after)) ≠ 0 := by
      rw [hab]
      exact (strtodLen_le a b ha).2
    simp only [parseFloatText, if_neg hpos]
    rw [hn, hab, List.take_left]
  · intro hno
    have h0 : strtodLen (cstr (s ++ after)) = 0 := by
      rcases hl.2 with h | ⟨a, b, hab, ha, _⟩
      · exact h.1
      · exact absurd ha (hno a b hab)
    simp only [parseFloatText, h0, if_true]

/-- C65, floating-point numbers: a view that is a whole C string is accepted if it is empty or of the form that `strtod`
reads, and no others. -/
theorem C65_float_terminated_partial (conv : Str → Flt) (s after : Str) (h : (0 : UInt8) ∉ s) :
    (parseFloatText conv s (0 :: after)).1 = true ↔ s = [] ∨ Strtod s := by
  have hc : cstr (s ++ 0 :: after) = s := by
    unfold cstr
    rw [List.takeWhile_append_of_pos]
    · simp
    · intro c hc
      have : c ≠ 0 := fun h0 => h (h0 ▸ hc)
      simpa using this
  rw [(C65_float_exact_partial conv s _).1, hc]
  constructor
  · rintro ⟨_, ⟨h0, _⟩ | ⟨a, b, hab, ha, hlen⟩⟩
    · exact .inl (List.length_eq_zero_iff.1 h0)
    · right
      have : b = [] := by
        have := congrArg List.length hab
        rw [List.length_append] at this
        exact List.length_eq_zero_iff.1 (by omega)
      rw [hab, this, List.append_nil]
      exact ha
  · intro hs
    refine ⟨?_, ?_⟩
    · intro a b hab _
      rw [hab, List.length_append]
      omega
    · rcases hs with rfl | hs
      · left
        refine ⟨rfl, ?_⟩
        intro a b hab ha
        obtain ⟨rfl, rfl⟩ := List.append_eq_nil_iff.1 hab.symm
        have := (strtodLen_le [] [] ha).2
        exact this (by decide)
      · exact .inr ⟨s, [], by simp, hs, rfl⟩

/-- `1e` is no such text (`1` is the longest prefix), ` -0X1.8p+2` is one. -/
example (conv : Str → Flt) : (parseFloatText conv (lit "1e") [0]).1 = false ∧ (parseFloatText conv (lit " -0X1.8p+2") [0]).1 = true ∧
    ¬ Strtod (lit "1e") ∧ Strtod (lit " -0X1.8p+2") := by
  refine ⟨rfl, rfl, ?_, ?_⟩
  · intro h
    have := (C65_float_terminated_partial conv (lit "1e") [] (by decide)).2 (.inr h)
    exact absurd (show false = true from this) (by decide)
  · have := (C65_float_terminated_partial conv (lit " -0X1.8p+2") [] (by decide)).1 rfl
    rcases this with h | h
    · exact absurd h (by decide)
    · exact h

end Verif.Props
