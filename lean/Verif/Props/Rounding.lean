import Verif.Rounding
import Verif.Props.Numeric

/-!
# Exact statements about floating-point targets

When the two readers agree (C16), when nothing is lost (C17), and that what is stored is the nearest value (C66).
-/

namespace Verif.Props
open Verif.Numeric

/-! ## The formats of IEEE 754

`C16_…`, `C17_…` and `C66_…` refer to the following definitions, which do not use those of the model. -/

/-- Precision of binary32 and binary64 (IEEE 754-2019, table 3.5). -/
def precision : FltTy → ℕ
  | .float => 24
  | .double => 53

/-- Greatest exponent of binary32 and binary64 (table 3.5). -/
def greatestExponent : FltTy → ℤ
  | .float => 127
  | .double => 1023

/-- The finite numbers of a format (3.3): `M · 2^(E - p + 1)` with `|M| < 2^p` and `1 - emax ≤ E ≤ emax`. -/
def Ieee (t : FltTy) (x : ℚ) : Prop :=
  ∃ M E : ℤ, |M| < 2 ^ precision t ∧ 1 - greatestExponent t ≤ E ∧ E ≤ greatestExponent t ∧ x = M * 2 ^ (E - precision t + 1)

/-- The greatest number of a format: all `p` digits are 1. -/
def greatest (t : FltTy) : ℚ := (2 - 2 ^ (1 - precision t : ℤ)) * 2 ^ greatestExponent t

/-- From here on numbers are rounded to infinity (4.3.1): `2^emax · (2 - ½ · 2^(1-p))`. -/
def overflows (t : FltTy) : ℚ := (2 - 2 ^ (-precision t : ℤ)) * 2 ^ greatestExponent t

theorem greatest_eq (t : FltTy) : largest t = greatest t := by
  cases t
  · norm_num [largest, greatest, FltTy.digits, FltTy.emax, precision, greatestExponent]
  · have h : (2 : ℚ) ^ (1023 : ℤ) = 2 ^ (971 : ℤ) * 2 ^ (52 : ℤ) := (zpow_add₀ (by norm_num) 971 52)
    simp only [largest, greatest, FltTy.digits, FltTy.emax, precision, greatestExponent, h]
    generalize (2 : ℚ) ^ (971 : ℤ) = x
    norm_num
    ring

theorem overflows_eq (t : FltTy) : threshold t = overflows t := by
  cases t
  · norm_num [threshold, overflows, FltTy.digits, FltTy.emax, precision, greatestExponent]
  · have h : (2 : ℚ) ^ (1023 : ℤ) = 2 ^ (971 - 1 : ℤ) * 2 ^ (53 : ℤ) := (zpow_add₀ (by norm_num) (971 - 1) 53)
    simp only [threshold, overflows, FltTy.digits, FltTy.emax, precision, greatestExponent, h]
    generalize (2 : ℚ) ^ (971 - 1 : ℤ) = x
    norm_num
    ring

theorem params (t : FltTy) : t.digits = precision t ∧ t.emin = 1 - greatestExponent t - precision t + 1 ∧ t.emax = greatestExponent t - precision t + 1 := by
  cases t <;> decide

/-- The numbers of a format are those of its finite values. -/
theorem ieee_iff (t : FltTy) (x : ℚ) : Ieee t x ↔ ∃ f : Flt, f.Fits t ∧ f.isFinite = true ∧ f.toRat = x := by
  obtain ⟨hp, hmin, hmax⟩ := params t
  constructor
  · rintro ⟨M, E, h1, h2, h3, rfl⟩
    refine ⟨norm (decide (M < 0)) M.natAbs (E - precision t + 1), ?_, norm_ne _ _ _, ?_⟩
    · have hb : bitLen M.natAbs ≤ t.digits := by
        rw [bitLen_le_iff, hp]
        zify
        exact_mod_cast h1
      exact norm_fits _ _ _ _ hb (by omega) (by omega)
    · rw [norm_toRat]
      by_cases h : M < 0
      · simp only [h, decide_true, if_true]
        have : ((M.natAbs : ℤ) : ℚ) = ((-M : ℤ) : ℚ) := by congr 1; omega
        rw [← Int.cast_natCast, this]
        push_cast
        ring
      · simp only [h, decide_false, Bool.false_eq_true, if_false, one_mul]
        have : ((M.natAbs : ℤ) : ℚ) = (M : ℚ) := by congr 1; omega
        rw [← Int.cast_natCast, this]
  · rintro ⟨f, h1, h2, rfl⟩
    cases f with
    | nan => cases h2
    | inf => cases h2
    | zero b =>
      refine ⟨0, 1, by positivity, ?_, ?_, by simp [Flt.toRat]⟩ <;> cases t <;> decide
    | fin neg k e =>
      obtain ⟨h1, h3, h4⟩ := h1
      obtain ⟨u, hu⟩ : ∃ u, u = max t.emin (e + bitLen (2 * k + 1) - t.digits) := ⟨_, rfl⟩
      obtain ⟨d, hd⟩ : ∃ d : ℕ, e = u + d := ⟨(e - u).toNat, by omega⟩
      have hpos : bitLen (2 * k + 1) ≠ 0 := by simp [bitLen]
      have hmm : t.emin ≤ t.emax := by cases t <;> decide
      refine ⟨(if neg then -1 else 1) * ((2 * k + 1) * 2 ^ d : ℕ), u + precision t - 1, ?_, by omega, by omega, ?_⟩
      · have : bitLen ((2 * k + 1) * 2 ^ d) ≤ precision t := by rw [bitLen_mul_pow (by omega)]; omega
        rw [bitLen_le_iff] at this
        have h' : |(if neg = true then (-1 : ℤ) else 1) * ((2 * k + 1) * 2 ^ d : ℕ)| = ((2 * k + 1) * 2 ^ d : ℕ) := by
          rw [abs_mul, Nat.abs_cast]
          cases neg <;> simp
        rw [h']
        exact_mod_cast this
      · rw [show u + (precision t : ℤ) - 1 - precision t + 1 = u by ring, hd]
        simp only [Flt.toRat]
        rw [zpow_add₀ (by norm_num), zpow_natCast]
        cases neg <;> simp <;> ring

/-- Which values of the model belong to a format. -/
theorem fits_iff (t : FltTy) (f : Flt) (hf : f.isFinite = true) : f.Fits t ↔ Ieee t f.toRat := by
  rw [ieee_iff]
  refine ⟨fun h => ⟨f, h, hf, rfl⟩, fun ⟨g, h1, h2, h3⟩ => ?_⟩
  rcases toRat_inj g f h2 hf h3 with rfl | ⟨b, b', rfl, rfl⟩
  · exact h1
  · trivial

/-- 16777215 is a `float`, the greatest `float` is one, and twice the least `double` is a `double`. -/
example : Ieee .float 16777215 ∧ Ieee .float (greatest .float) ∧ Ieee .double (2 ^ (-1073 : ℤ)) := by
  refine ⟨⟨16777215, 23, by norm_num [precision], by norm_num [greatestExponent], by norm_num [greatestExponent], by norm_num [precision]⟩,
    ⟨16777215, 127, by norm_num [precision], by norm_num [greatestExponent], by norm_num [greatestExponent], by norm_num [precision, greatest, greatestExponent]⟩,
    ⟨2, -1022, by norm_num [precision], by norm_num [greatestExponent], by norm_num [greatestExponent], ?_⟩⟩
  rw [show (-1073 : ℤ) = 1 + (-1074) from rfl, zpow_add₀ (two_ne_zero (α := ℚ)), zpow_one]
  rfl

/-! ## C16 -/

/-- **C16, partial.** For a floating-point target and an integer the two readers agree exactly when the magnitude of the
integer is below `2^digits`; otherwise the parser rejects what the DOM reader rounds. -/
theorem C16_float_from_int_partial (t : FltTy) (e : NumEvent) (h : e.Valid) (v : Int) (hv : eventInt e = some v) :
    parseNumber (.flt t) e = outcome (deserializeNumber (.flt t) (JsonNum.ofEvent e)) ↔ v.natAbs < 2 ^ t.digits := by
  obtain ⟨h1, -⟩ := C14_int_to_float_partial t e h v hv
  constructor
  · intro he
    exact h1.1 ⟨_, he⟩
  · intro hb
    obtain ⟨r, hr⟩ := h1.2 hb
    rw [hr, C16_readers_agree_float_partial t e h r hr]

/-- 7 is below the limit for `float`, 2^24+1 is not. -/
example : (parseNumber (.flt .float) (.integer 7) = outcome (deserializeNumber (.flt .float) (JsonNum.ofEvent (.integer 7)))) ∧
    ¬ (parseNumber (.flt .float) (.unsigned 16777217) = outcome (deserializeNumber (.flt .float) (JsonNum.ofEvent (.unsigned 16777217)))) :=
  ⟨(C16_float_from_int_partial .float (.integer 7) (by decide) 7 rfl).2 (by decide),
    fun h => absurd ((C16_float_from_int_partial .float (.unsigned 16777217) (by decide) 16777217 rfl).1 h) (by decide)⟩

/-- **C16, partial.** For a floating-point target and a floating-point number the two readers agree exactly when the target
is `double` or the number is finite and at most the greatest `float` in magnitude. -/
theorem C16_float_from_double_partial (t : FltTy) (d : Flt) :
    parseNumber (.flt t) (.double d) = outcome (deserializeNumber (.flt t) (.dbl d)) ↔
      t = .double ∨ (d.isFinite = true ∧ |d.toRat| ≤ greatest .float) := by
  rw [← greatest_eq, ← withinRange_iff]
  simp only [parseNumber, parseDouble, deserializeNumber, deserializeFlt, JsonNum.getDouble, outcome, isAssignableFltFlt]
  cases t
  · simp only [reduceCtorEq, false_or]
    have : ¬ FltTy.float.size ≥ FltTy.double.size := by decide
    simp only [this, if_false]
    split <;> simp_all
  · simp [FltTy.size]

/-- 1.5 is read alike, 2^128 is not. -/
example : parseNumber (.flt .float) (.double (.fin false 1 (-1))) = outcome (deserializeNumber (.flt .float) (.dbl (.fin false 1 (-1)))) ∧
    ¬ parseNumber (.flt .float) (.double (.fin false 0 128)) = outcome (deserializeNumber (.flt .float) (.dbl (.fin false 0 128))) := by
  rw [C16_float_from_double_partial, C16_float_from_double_partial, ← greatest_eq, ← withinRange_iff, ← withinRange_iff]
  decide +kernel

/-! ## C17 -/

/-- **C17, partial.** A finite floating-point number is stored without loss exactly when it is a value of the target type,
with either reader. -/
theorem C17_exact_iff_partial (t : FltTy) (d : Flt) (hd : d.Fits .double) (hf : d.isFinite = true) :
    ((∃ f, deserializeNumber (.flt t) (.dbl d) = .ok (.flt f) ∧ f.isFinite = true ∧ f.toRat = d.toRat) ↔ Ieee t d.toRat) ∧
    ((∃ f, parseNumber (.flt t) (.double d) = some (.flt f) ∧ f.isFinite = true ∧ f.toRat = d.toRat) ↔ Ieee t d.toRat) := by
  rw [← fits_iff t d hf]
  constructor
  · rw [← round_exact_iff t d hf]
    constructor
    · rintro ⟨f, h1, h2⟩
      injection h1 with h1
      injection h1 with h1
      rw [← h1] at h2
      exact h2
    · intro h
      exact ⟨_, rfl, h⟩
  · constructor
    · rintro ⟨f, h1, h2⟩
      simp only [parseNumber, parseDouble] at h1
      split at h1
      · injection h1 with h1
        injection h1 with h1
        rw [← h1] at h2
        exact (round_exact_iff t d hf).1 h2
      · cases h1
    · intro h
      cases t
      · exact ⟨d, (C17_float_values_exact_partial d h hf).1, hf, rfl⟩
      · exact ⟨d, (C17_float_exact_partial d hd).1, hf, rfl⟩

/-- 1.5 is a `float`, 0.1 as a `double` is not. -/
example : (Flt.fin false 1 (-1)).Fits .float ∧ tenth.Fits .double ∧ tenth.isFinite = true ∧ ¬ tenth.Fits .float := by decide +kernel

/-- **C17, partial.** Which finite numbers the readers accept: the parser those up to the greatest value of the type,
and the DOM reader all, storing an infinity exactly from the point half-way to the next power of two on. -/
theorem C17_overflow_partial (t : FltTy) (d : Flt) (hd : d.Fits .double) (hf : d.isFinite = true) :
    ((∃ r, parseNumber (.flt t) (.double d) = some r) ↔ |d.toRat| ≤ greatest t) ∧
    (∃ f, deserializeNumber (.flt t) (.dbl d) = .ok (.flt f) ∧ (f.isFinite = true ↔ |d.toRat| < overflows t)) := by
  rw [← greatest_eq, ← overflows_eq]
  constructor
  · have hw := withinRange_iff t d
    simp only [parseNumber, parseDouble, isAssignableFltFlt]
    cases t
    · have : ¬ FltTy.float.size ≥ FltTy.double.size := by decide
      simp only [this, if_false]
      split
      · rename_i h; exact ⟨fun _ => (hw.1 h).2, fun _ => ⟨_, rfl⟩⟩
      · rename_i h
        refine ⟨fun h' => (by obtain ⟨r, h'⟩ := h'; cases h'), fun h' => absurd (hw.2 ⟨hf, h'⟩) h⟩
    · simp only [ge_iff_le, Nat.le_refl, if_true]
      exact ⟨fun _ => (hw.1 (withinRange_of_fits .double d hd hf)).2, fun _ => ⟨_, rfl⟩⟩
  · refine ⟨_, rfl, ?_⟩
    rw [← not_le]
    exact round_finite_iff t d hf

/-- 2^128 - 3·2^102 lies above the greatest `float` 2^128 - 4·2^102 and below the half-way point 2^128 - 2·2^102: rejected by
the parser, stored as the greatest `float` by the DOM reader. The half-way point itself is stored as infinity. -/
example : (Flt.fin false (2 ^ 25 - 2) 102).Fits .double ∧
    parseNumber (.flt .float) (.double (.fin false (2 ^ 25 - 2) 102)) = none ∧
    deserializeNumber (.flt .float) (.dbl (.fin false (2 ^ 25 - 2) 102)) = .ok (.flt (.fin false (2 ^ 23 - 1) 104)) ∧
    deserializeNumber (.flt .float) (.dbl (.fin false (2 ^ 24 - 1) 103)) = .ok (.flt (.inf false)) := by
  decide +kernel

/-! ## C66 -/

/-- The value of the format that IEEE 754 prescribes for a number: among the finite values none is nearer, of two equally near
ones it is the even multiple of the unit; from the half-way point beyond the greatest value on, infinity. -/
def Correct (t : FltTy) (x : ℚ) (r : Flt) : Prop :=
  r ≠ .nan ∧ (r.isFinite = true ↔ |x| < overflows t) ∧
  (r.isFinite = true → Ieee t r.toRat ∧ ∀ y, Ieee t y → |r.toRat - x| ≤ |y - x| ∧
    (|r.toRat - x| = |y - x| → y ≠ r.toRat →
      ∃ (n q : ℤ), r.toRat = (2 * n : ℤ) * 2 ^ q ∧ (y = (2 * n + 1 : ℤ) * 2 ^ q ∨ y = (2 * n - 1 : ℤ) * 2 ^ q)))

theorem round_correct (t : FltTy) (f : Flt) (hf : f.isFinite = true) : Correct t f.toRat (f.round t) := by
  refine ⟨?_, ?_, fun h => ⟨(fits_iff t _ h).1 (round_fits_result t f), fun y hy => ?_⟩⟩
  · intro h
    cases f with
    | nan => cases hf
    | inf => cases hf
    | zero => cases h
    | fin neg k e =>
      simp only [Flt.round] at h
      unfold roundPos at h
      simp only at h
      repeat' split at h
      all_goals first
        | cases h
        | (have := congrArg Flt.isFinite h; rw [norm_ne] at this; cases this)
  · rw [← not_le, ← overflows_eq]
    exact round_finite_iff t f hf
  · obtain ⟨g, h1, h2, rfl⟩ := (ieee_iff t y).1 hy
    exact round_nearest t f h g h1 h2

/-- Two correct finite results denote the same number, so the specification leaves no choice. -/
theorem Correct.unique {t : FltTy} {x : ℚ} {r r' : Flt} (h : Correct t x r) (h' : Correct t x r')
    (hr : r.isFinite = true) (hr' : r'.isFinite = true) : r.toRat = r'.toRat := by
  obtain ⟨hle, htie⟩ := (h.2.2 hr).2 r'.toRat (h'.2.2 hr').1
  obtain ⟨hle', htie'⟩ := (h'.2.2 hr').2 r.toRat (h.2.2 hr).1
  have heq := le_antisymm hle hle'
  refine Decidable.byContradiction fun hne => ?_
  obtain ⟨n, q, h1, h2⟩ := htie heq (fun h => hne h.symm)
  obtain ⟨n', q', h3, h4⟩ := htie' heq.symm hne
  have key : ∀ (a b : ℤ) (q q' : ℤ) (s s' : ℤ), (2 * a : ℤ) * (2 : ℚ) ^ q = ((2 * b + s : ℤ) : ℚ) * 2 ^ q' → (2 * b : ℤ) * (2 : ℚ) ^ q' = ((2 * a + s' : ℤ) : ℚ) * 2 ^ q →
      s % 2 = 1 → s' % 2 = 1 → False := by
    intro a b q q' s s' e1 e2 hs hs'
    rcases le_total q q' with hq | hq
    · obtain ⟨d, rfl⟩ := Int.le.dest hq
      rw [zpow_add₀ (by norm_num), zpow_natCast] at e2
      have hz := (pow_pos' q).ne'
      have e3 : ((2 * b * 2 ^ d : ℤ) : ℚ) = ((2 * a + s' : ℤ) : ℚ) := by
        apply mul_right_cancel₀ hz
        rw [← e2]
        push_cast
        ring
      have e4 : (2 * b * 2 ^ d : ℤ) = 2 * a + s' := by exact_mod_cast e3
      rw [Int.mul_assoc] at e4
      generalize b * 2 ^ d = c at e4
      omega
    · obtain ⟨d, rfl⟩ := Int.le.dest hq
      rw [zpow_add₀ (by norm_num), zpow_natCast] at e1
      have hz := (pow_pos' q').ne'
      have e3 : ((2 * a * 2 ^ d : ℤ) : ℚ) = ((2 * b + s : ℤ) : ℚ) := by
        apply mul_right_cancel₀ hz
        rw [← e1]
        push_cast
        ring
      have e4 : (2 * a * 2 ^ d : ℤ) = 2 * b + s := by exact_mod_cast e3
      rw [Int.mul_assoc] at e4
      generalize a * 2 ^ d = c at e4
      omega
  rcases h2 with h2 | h2 <;> rcases h4 with h4 | h4
  · exact key n n' q q' 1 1 (h1 ▸ h4) (h3 ▸ h2) rfl rfl
  · exact key n n' q q' (-1) 1 (by rw [← Int.sub_eq_add_neg]; exact h1 ▸ h4) (h3 ▸ h2) rfl rfl
  · exact key n n' q q' 1 (-1) (h1 ▸ h4) (by rw [← Int.sub_eq_add_neg]; exact h3 ▸ h2) rfl rfl
  · exact key n n' q q' (-1) (-1) (by rw [← Int.sub_eq_add_neg]; exact h1 ▸ h4) (by rw [← Int.sub_eq_add_neg]; exact h3 ▸ h2) rfl rfl

/-- **C66, partial.** Whatever the streaming parser stores in a floating-point target, for an integer or a finite
floating-point number, is the value that IEEE 754 prescribes for that number, and finite. -/
theorem C66_parser_nearest_partial (t : FltTy) (e : NumEvent) (h : e.Valid) (f : Flt) (hp : parseNumber (.flt t) e = some (.flt f)) :
    (∀ v, eventInt e = some v → Correct t v f ∧ f.isFinite = true) ∧
    (∀ d, e = .double d → d.isFinite = true → Correct t d.toRat f ∧ f.isFinite = true) := by
  constructor
  · intro v hv
    have hb := ((C14_int_to_float_partial t e h v hv).1).1 ⟨_, hp⟩
    have hres : f = Flt.castInt t v := by
      cases e <;> simp only [eventInt, Option.some.injEq, reduceCtorEq] at hv <;> subst hv <;>
        (simp only [parseNumber, parseInt] at hp; split at hp <;> simp_all)
    have hfin : (Flt.ofInt v).isFinite = true := norm_ne _ _ _
    have := round_correct t (Flt.ofInt v) hfin
    rw [toRat_ofInt] at this
    refine ⟨hres ▸ this, ?_⟩
    rw [hres, castInt_exact t v hb]
    exact hfin
  · rintro d rfl hf
    have hacc := ((C17_overflow_partial t d h hf).1).1 ⟨_, hp⟩
    simp only [parseNumber, parseDouble] at hp
    split at hp
    · injection hp with hp
      injection hp with hp
      subst hp
      exact ⟨round_correct t d hf, (round_finite_iff t d hf).2 (not_le.2 (lt_of_le_of_lt (greatest_eq t ▸ hacc) (largest_lt_threshold t)))⟩
    · cases hp

/-- 0.1 read into a `float`. -/
example : NumEvent.Valid (.double tenth) ∧ parseNumber (.flt .float) (.double tenth) = some (.flt (.fin false 6710886 (-27))) ∧ tenth.isFinite = true := by
  decide +kernel

/-- **C66, partial.** The DOM reader stores the value that IEEE 754 prescribes for every finite floating-point number, for every
integer read into a `double`, and for integers up to `2^53` read into a `float`. Larger integers read into a `float`:
`C66_dom_integer_exact_partial`. -/
theorem C66_dom_nearest_partial (t : FltTy) :
    (∀ d : Flt, d.isFinite = true → ∃ f, deserializeNumber (.flt t) (.dbl d) = .ok (.flt f) ∧ Correct t d.toRat f) ∧
    (∀ v : Int, t = .double ∨ v.natAbs ≤ 2 ^ 53 → ∃ f, deserializeNumber (.flt t) (.int v) = .ok (.flt f) ∧ Correct t v f) := by
  constructor
  · intro d hf
    exact ⟨_, rfl, round_correct t d hf⟩
  · intro v hv
    have hfin : (Flt.ofInt v).isFinite = true := norm_ne _ _ _
    have hgoal : (Flt.castInt .double v).round t = (Flt.ofInt v).round t := by
      rcases hv with rfl | hv
      · exact round_fits _ _ (round_fits_result .double _)
      · have : (Flt.ofInt v).Fits .double := by
          rcases Nat.lt_or_eq_of_le hv with h | h
          · exact ofInt_fits .double v h
          · have : v = 2 ^ 53 ∨ v = -2 ^ 53 := by omega
            rcases this with rfl | rfl <;> decide +kernel
        rw [Flt.castInt, round_fits _ _ this]
    refine ⟨(Flt.castInt .double v).round t, rfl, ?_⟩
    rw [hgoal]
    have := round_correct t (Flt.ofInt v) hfin
    rw [toRat_ofInt] at this
    exact this

/-- 2^24+1 lies half-way between two `float` values; the even one is stored. -/
example : deserializeNumber (.flt .float) (.int 16777217) = .ok (.flt (.fin false 0 24)) ∧
    deserializeNumber (.flt .float) (.int 16777219) = .ok (.flt (.fin false 2097152 2)) := by
  decide +kernel

/-- **C66, full statement refuted.** The DOM reader converts an integer to `double` first and to `float` afterwards. The
integer 2^60 + 2^36 + 1 is stored as 2^60, although the `float` 2^60 + 2^37 is nearer. -/
theorem C66_double_rounding :
    JsonNum.Valid (.int (2 ^ 60 + 2 ^ 36 + 1)) ∧
    deserializeNumber (.flt .float) (.int (2 ^ 60 + 2 ^ 36 + 1)) = .ok (.flt (.fin false 0 60)) ∧
    ¬ Correct .float ((2 ^ 60 + 2 ^ 36 + 1 : ℤ) : ℚ) (.fin false 0 60) ∧
    Correct .float ((2 ^ 60 + 2 ^ 36 + 1 : ℤ) : ℚ) (.fin false 4194304 37) := by
  refine ⟨by decide, by decide +kernel, ?_, ?_⟩
  · intro h
    have := ((h.2.2 rfl).2 _ ((fits_iff .float (.fin false 4194304 37) rfl).1 (by decide))).1
    simp only [Flt.toRat, Bool.false_eq_true, if_false] at this
    norm_num at this
  · have := round_correct .float (Flt.ofInt (2 ^ 60 + 2 ^ 36 + 1)) (norm_ne _ _ _)
    rw [toRat_ofInt] at this
    have he : (Flt.ofInt (2 ^ 60 + 2 ^ 36 + 1)).round .float = .fin false 4194304 37 := by decide +kernel
    rw [he] at this
    exact this

/-! Rounding an integer twice -/

/-- A multiple of a power of two with few digits is a number of the format. -/
theorem ieee_of_mul (t : FltTy) (M E : ℤ) (hM : |M| < 2 ^ precision t) (h0 : 0 ≤ E) (h1 : E ≤ 64) : Ieee t (M * 2 ^ E) := by
  refine ⟨M, E + precision t - 1, hM, ?_, ?_, by rw [show E + (precision t : ℤ) - 1 - precision t + 1 = E by ring]⟩
  · cases t <;> simp [precision, greatestExponent] <;> omega
  · cases t <;> simp [precision, greatestExponent] <;> omega

/-- Large values of `float` are multiples of `2^30`. -/
theorem float_multiple (x : ℚ) (h : Ieee .float x) (hx : 2 ^ 53 ≤ |x|) : ∃ A : ℤ, x = A * 2 ^ 30 := by
  obtain ⟨M, E, hM, hE, -, rfl⟩ := h
  simp only [precision, Nat.cast_ofNat] at hM hx ⊢
  have hE' : 30 ≤ E - 24 + 1 := by
    by_contra hlt
    have h2 : (2 : ℚ) ^ (E - 24 + 1) ≤ 2 ^ (29 : ℤ) := zpow_le_zpow_right₀ (by norm_num) (by omega)
    have h3 : |(M : ℚ)| ≤ 2 ^ 24 - 1 := by
      have : |M| ≤ 2 ^ 24 - 1 := by omega
      exact_mod_cast this
    rw [abs_mul, abs_of_pos (pow_pos' _)] at hx
    have h4 : |(M : ℚ)| * 2 ^ (E - 24 + 1) ≤ (2 ^ 24 - 1) * 2 ^ (29 : ℤ) :=
      mul_le_mul h3 h2 (pow_pos' _).le (by norm_num)
    norm_num at h4 hx
    linarith
  refine ⟨M * 2 ^ (E - 24 + 1 - 30).toNat, ?_⟩
  push_cast
  rw [mul_assoc, ← zpow_natCast, ← zpow_natCast, ← zpow_add₀ (by norm_num)]
  congr 2
  push_cast
  rw [Int.toNat_of_nonneg (by omega)]
  ring

/-- The nearest value of a format is on the same side of every value of the format as the number. -/
theorem side {t : FltTy} {x d z : ℚ} (hd : ∀ y, Ieee t y → |d - x| ≤ |y - x|) (hz : Ieee t z) :
    (z ≤ x → z ≤ d) ∧ (x ≤ z → d ≤ z) := by
  constructor
  · intro h
    by_contra hlt
    have h1 := hd z hz
    rw [abs_of_nonpos (by linarith), abs_of_nonpos (by linarith)] at h1
    linarith
  · intro h
    by_contra hlt
    have h1 := hd z hz
    rw [abs_of_nonneg (by linarith), abs_of_nonneg (by linarith)] at h1
    linarith

theorem ieee_neg {t : FltTy} {x : ℚ} (h : Ieee t x) : Ieee t (-x) := by
  obtain ⟨M, E, h1, h2, h3, rfl⟩ := h
  exact ⟨-M, E, by rwa [abs_neg], h2, h3, by push_cast; ring⟩

/-- Rounded numbers stay within powers of two. -/
theorem bounds {t : FltTy} {x d : ℚ} (hd : ∀ y, Ieee t y → |d - x| ≤ |y - x|) (n : ℕ) (hn : n ≤ 64) :
    (2 ^ n ≤ |x| → 2 ^ n ≤ |d|) ∧ (|x| ≤ 2 ^ n → |d| ≤ 2 ^ n) := by
  have hp : Ieee t (2 ^ n) := by
    have := ieee_of_mul t 1 n (by cases t <;> decide) (by omega) (by omega)
    simpa using this
  have hp' := ieee_neg hp
  constructor
  · intro h
    rcases le_abs.1 h with h | h
    · exact le_abs.2 (.inl ((side hd hp).1 h))
    · exact le_abs.2 (.inr (by have := (side hd hp').2 (by linarith); linarith))
  · intro h
    have := abs_le.1 h
    exact abs_le.2 ⟨(side hd hp').1 this.1, (side hd hp).2 this.2⟩

/-- Rounding twice, of numbers between `2^53` and `2^64`. -/
theorem twice (x d f r : ℚ) (h53 : 2 ^ 53 ≤ |x|) (h64 : |x| ≤ 2 ^ 64)
    (hd : ∀ y, Ieee .double y → |d - x| ≤ |y - x|)
    (hf : Ieee .float f ∧ ∀ y, Ieee .float y → |f - d| ≤ |y - d|) (hr : Ieee .float r ∧ ∀ y, Ieee .float y → |r - x| ≤ |y - x|)
    (hno : ¬ ∃ y, Ieee .float y ∧ |y - d| = |f - d| ∧ |y - x| < |f - x|) : f = r ∨ d = x := by
  by_cases hne : f = r
  · exact .inl hne
  right
  obtain ⟨hd53, hd64⟩ := bounds hd 53 (by norm_num)
  obtain ⟨A, hA⟩ := float_multiple f hf.1 ((bounds hf.2 53 (by norm_num)).1 (hd53 h53))
  obtain ⟨B, hB⟩ := float_multiple r hr.1 ((bounds hr.2 53 (by norm_num)).1 h53)
  have hf64 : |f| ≤ 2 ^ 64 := (bounds hf.2 64 (by norm_num)).2 ((bounds hd 64 (by norm_num)).2 h64)
  have hr64 : |r| ≤ 2 ^ 64 := (bounds hr.2 64 (by norm_num)).2 h64
  have hA' : |A| ≤ 2 ^ 34 := by
    rw [hA, abs_mul, abs_of_pos (by positivity : (0 : ℚ) < 2 ^ 30)] at hf64
    have : |(A : ℚ)| ≤ 2 ^ 34 := by
      norm_num at hf64 ⊢
      linarith
    exact_mod_cast this
  have hB' : |B| ≤ 2 ^ 34 := by
    rw [hB, abs_mul, abs_of_pos (by positivity : (0 : ℚ) < 2 ^ 30)] at hr64
    have : |(B : ℚ)| ≤ 2 ^ 34 := by
      norm_num at hr64 ⊢
      linarith
    exact_mod_cast this
  have hmid : Ieee .double ((f + r) / 2) := by
    have := ieee_of_mul .double (A + B) 29 (by have := abs_add_le A B; simp only [precision]; omega) (by norm_num) (by norm_num)
    convert this using 1
    rw [hA, hB]
    push_cast
    norm_num
    ring
  have h1 := hr.2 f hf.1
  have h2 := hf.2 r hr.1
  have h3 := side hd hmid
  rcases h1.lt_or_eq with hlt | heq
  · exfalso
    apply hno
    refine ⟨r, hr.1, ?_, hlt⟩
    rcases lt_or_gt_of_ne hne with hlt' | hlt'
    · have hx : (f + r) / 2 ≤ x := by
        by_contra hc
        rw [abs_lt, lt_abs] at hlt
        rcases abs_cases (f - x) with ⟨h, _⟩ | ⟨h, _⟩ <;> rcases abs_cases (r - x) with ⟨h', _⟩ | ⟨h', _⟩ <;> rw [h, h'] at h1 <;> linarith
      have hdm := h3.1 hx
      rcases abs_cases (f - d) with ⟨h, _⟩ | ⟨h, _⟩ <;> rcases abs_cases (r - d) with ⟨h', _⟩ | ⟨h', _⟩ <;> rw [h, h'] at h2 ⊢ <;> linarith
    · have hx : x ≤ (f + r) / 2 := by
        by_contra hc
        rcases abs_cases (f - x) with ⟨h, _⟩ | ⟨h, _⟩ <;> rcases abs_cases (r - x) with ⟨h', _⟩ | ⟨h', _⟩ <;> rw [h, h'] at h1 <;> linarith
      have hdm := h3.2 hx
      rcases abs_cases (f - d) with ⟨h, _⟩ | ⟨h, _⟩ <;> rcases abs_cases (r - d) with ⟨h', _⟩ | ⟨h', _⟩ <;> rw [h, h'] at h2 ⊢ <;> linarith
  · have hx : x = (f + r) / 2 := by
      rcases abs_eq_abs.1 heq with h | h
      · exact (hne (by linarith)).elim
      · linarith
    have := hd _ hmid
    rw [← hx, sub_self, abs_zero] at this
    have := abs_eq_zero.1 (le_antisymm this (abs_nonneg _))
    linarith


/-- **C66, partial.** Exactly when the DOM reader stores another value than IEEE 754 prescribes, for every integer read into a `float`. The
integer is rounded to the `double` `d` first. The `float` stored is the wrong one if and only if another `float` is as near to `d`, but
nearer to the integer: `d` lies half-way between two values of `float` and the integer on the side of the other one. -/
theorem C66_dom_integer_exact_partial (v : ℤ) (hv : JsonNum.Valid (.int v)) :
    ∃ d f : Flt, Correct .double v d ∧ d.isFinite = true ∧ deserializeNumber (.flt .float) (.int v) = .ok (.flt f) ∧ f.isFinite = true ∧
      Correct .float d.toRat f ∧ (Correct .float v f ↔ ¬ ∃ y, Ieee .float y ∧ |y - d.toRat| = |f.toRat - d.toRat| ∧ |y - v| < |f.toRat - v|) := by
  have hfin : (Flt.ofInt v).isFinite = true := norm_ne _ _ _
  have hc := round_correct .double (Flt.ofInt v) hfin
  have hcf := round_correct .float (Flt.ofInt v) hfin
  rw [toRat_ofInt] at hc hcf
  have h64 : |(v : ℚ)| ≤ 2 ^ 64 := by
    have : |v| ≤ 2 ^ 64 := by
      simp only [JsonNum.Valid] at hv
      norm_num [i64, u64, IntTy.min, IntTy.max, Width.bits] at hv ⊢
      rw [abs_le]
      omega
    exact_mod_cast this
  have hbig : ∀ t, (2 : ℚ) ^ 64 < overflows t := by
    intro t
    have h1 : (2 : ℚ) ^ (65 : ℤ) ≤ 2 ^ greatestExponent t := zpow_le_zpow_right₀ (by norm_num) (by cases t <;> decide)
    have h2 : (1 : ℚ) ≤ 2 - 2 ^ (-precision t : ℤ) := by cases t <;> norm_num [precision]
    have h3 := mul_le_mul h2 h1 (by positivity) (by linarith)
    refine lt_of_lt_of_le ?_ h3
    norm_num
  have hd : (Flt.castInt .double v).isFinite = true := hc.2.1.2 (lt_of_le_of_lt h64 (hbig _))
  have hdn := (hc.2.2 hd).2
  have hd64 := (bounds (fun y hy => (hdn y hy).1) 64 (by norm_num)).2 h64
  have hff := round_correct .float (Flt.castInt .double v) hd
  have hf : ((Flt.castInt .double v).round .float).isFinite = true := hff.2.1.2 (lt_of_le_of_lt hd64 (hbig _))
  have hr : ((Flt.ofInt v).round .float).isFinite = true := hcf.2.1.2 (lt_of_le_of_lt h64 (hbig _))
  refine ⟨Flt.castInt .double v, (Flt.castInt .double v).round .float, hc, hd, rfl, hf, hff, ?_, ?_⟩
  · rintro h ⟨y, hy, -, hlt⟩
    exact absurd ((h.2.2 hf).2 y hy).1 (not_le.2 hlt)
  · intro hno
    by_cases h53 : (2 : ℚ) ^ 53 ≤ |(v : ℚ)|
    · rcases twice v _ _ ((Flt.ofInt v).round .float).toRat h53 h64 (fun y hy => (hdn y hy).1)
        ⟨((hff.2.2 hf).1), fun y hy => ((hff.2.2 hf).2 y hy).1⟩ ⟨(hcf.2.2 hr).1, fun y hy => ((hcf.2.2 hr).2 y hy).1⟩ hno with h | h
      · unfold Correct at hcf ⊢
        rw [h, hf]
        rw [hr] at hcf
        exact ⟨(fun he => by rw [he] at hf; cases hf), hcf.2⟩
      · have h : (Flt.castInt .double v).toRat = v := h
        rw [h] at hff
        exact hff
    · obtain ⟨f, h1, h2⟩ := (C66_dom_nearest_partial .float).2 v (.inr (by
        have : |v| < 2 ^ 53 := by
          rw [not_le] at h53
          exact_mod_cast h53
        rw [Int.abs_eq_natAbs] at this
        omega))
      cases h1
      exact h2

/-- **C66, partial.** What the DOM reader stores for an integer is never far off: no `float` is nearer to the integer by more than 2048,
which is 2^-29 of the smallest integers for which anything can go wrong. -/
theorem C66_dom_integer_error_partial (v : ℤ) (hv : JsonNum.Valid (.int v)) :
    ∃ f : Flt, deserializeNumber (.flt .float) (.int v) = .ok (.flt f) ∧ f.isFinite = true ∧ ∀ y, Ieee .float y → |f.toRat - v| ≤ |y - v| + 2048 := by
  obtain ⟨d, f, hd, hdf, h1, h2, hf, -⟩ := C66_dom_integer_exact_partial v hv
  refine ⟨f, h1, h2, fun y hy => ?_⟩
  have hnear : |d.toRat - v| ≤ 1024 := by
    have hk : |(v + 1024) / 2048 * 2048 - v| ≤ 1024 := by rw [abs_le]; omega
    have hb : -2 ^ 53 ≤ (v + 1024) / 2048 ∧ (v + 1024) / 2048 ≤ 2 ^ 53 := by
      simp only [JsonNum.Valid] at hv
      norm_num [i64, u64, IntTy.min, IntTy.max, Width.bits] at hv ⊢
      omega
    have hi : Ieee .double (((v + 1024) / 2048 : ℤ) * 2 ^ (11 : ℤ)) := by
      by_cases hs : |(v + 1024) / 2048| < 2 ^ 53
      · exact ieee_of_mul .double _ 11 hs (by norm_num) (by norm_num)
      · have : (v + 1024) / 2048 = 2 ^ 53 ∨ (v + 1024) / 2048 = -2 ^ 53 := by
          rw [abs_lt] at hs
          omega
        have h64 := ieee_of_mul .double 1 64 (by decide) (by norm_num) (by norm_num)
        rcases this with h | h <;> rw [h]
        · convert h64 using 1
          norm_num
        · convert ieee_neg h64 using 1
          norm_num
    refine le_trans ((hd.2.2 hdf).2 _ hi).1 ?_
    have : |((((v + 1024) / 2048 * 2048 - v : ℤ)) : ℚ)| ≤ 1024 := by exact_mod_cast hk
    push_cast at this ⊢
    exact this
  have h3 := ((hf.2.2 h2).2 y hy).1
  have h4 := abs_sub_le f.toRat d.toRat v
  have h5 := abs_sub_le y v d.toRat
  rw [abs_sub_comm (v : ℚ)] at h5
  linarith

/-- The integer of `C66_double_rounding`: `d` is 2^60 + 2^36, half-way between the values of `float` 2^60 and 2^60 + 2^37. -/
example : JsonNum.Valid (.int (2 ^ 60 + 2 ^ 36 + 1)) ∧ (Flt.castInt .double (2 ^ 60 + 2 ^ 36 + 1)).toRat = 2 ^ 60 + 2 ^ 36 ∧
    ∃ y, Ieee .float y ∧ |y - (2 ^ 60 + 2 ^ 36)| = |(Flt.fin false 0 60).toRat - (2 ^ 60 + 2 ^ 36)| ∧
      |y - (2 ^ 60 + 2 ^ 36 + 1)| < |(Flt.fin false 0 60).toRat - (2 ^ 60 + 2 ^ 36 + 1)| := by
  have h : Flt.castInt .double (2 ^ 60 + 2 ^ 36 + 1) = .fin false 8388608 36 := by decide +kernel
  rw [h]
  refine ⟨by decide, ?_, (Flt.fin false 4194304 37).toRat, (fits_iff .float (.fin false 4194304 37) rfl).1 (by decide), ?_, ?_⟩ <;>
    simp only [Flt.toRat, Bool.false_eq_true, if_false] <;> norm_num

/-- One more, and the `float` is the nearest, though the integer is rounded twice. -/
example : deserializeNumber (.flt .float) (.int (2 ^ 60 + 2 ^ 36 + 2 ^ 8)) = .ok (.flt (.fin false 4194304 37)) := by decide +kernel

end Verif.Props
