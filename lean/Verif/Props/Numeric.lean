import Verif.NumericLemmas

/-!
# Properties C13 to C17: reading numbers

Specification: `t.InRange v` (mathematical range of a C++ integer type) and `EqInt f v` (the
floating-point value `f` is the integer `v`).
-/

namespace Verif.Props
open Verif.Numeric

/-- The floating-point value is exactly the integer `v`. -/
def EqInt : Flt → Int → Prop
  | .zero _, v => v = 0
  | .fin neg k e, v => 0 ≤ e ∧ v = (if neg then -1 else 1) * ((2 * k + 1) * 2 ^ e.toNat : Nat)
  | _, _ => False

/-- The integer is a value of the floating-point type. -/
def Representable (t : FltTy) (v : Int) : Prop := ∃ f : Flt, f.Fits t ∧ EqInt f v

/-- The integer reported by an event, `none` for doubles. -/
def eventInt : NumEvent → Option Int
  | .integer v => some v
  | .unsigned v => some v
  | .integer64 v => some v
  | .unsigned64 v => some v
  | .double _ => none

theorem eqInt_ofInt (v : Int) : EqInt (Flt.ofInt v) v := by
  unfold Flt.ofInt
  by_cases h0 : v.natAbs = 0
  · rw [h0]
    have : v = 0 := by omega
    simpa [norm, normFuel, EqInt] using this
  · obtain ⟨k, n, hk⟩ := exists_odd _ h0
    rw [hk, norm_mul_pow _ _ _ (by omega), norm_odd]
    refine ⟨by omega, ?_⟩
    have : (0 + (n : Int)).toNat = n := by omega
    rw [this, ← hk]
    by_cases hneg : v < 0
    · simp only [hneg, decide_true, if_true]; omega
    · simp only [hneg, decide_false, Bool.false_eq_true, if_false]; omega

/-! ## Integers into integers -/

/-- **C13.** Parsing a number into an integer type succeeds iff the reader reports an integer in the
range of the type, and then stores exactly that integer. -/
theorem C13_parse_int_exact (t : IntTy) (e : NumEvent) (h : e.Valid) (r : NumVal) :
    parseNumber (.int t) e = some r ↔ ∃ v, eventInt e = some v ∧ t.InRange v ∧ r = .int v := by
  have key : ∀ (V : IntTy) (v : Int), V.InRange v →
      (parseInt (.int t) V v = some r ↔ ∃ w, some v = some w ∧ t.InRange w ∧ r = .int w) := by
    intro V v hv
    have hi := isAssignableIntInt_iff t V v hv
    unfold parseInt
    simp only [Option.some.injEq]
    by_cases hr : t.InRange v
    · rw [if_pos (hi.2 hr), t.cast_inRange v hr]
      constructor
      · intro hh; exact ⟨v, rfl, hr, (Option.some.inj hh).symm⟩
      · rintro ⟨w, rfl, -, rfl⟩; rfl
    · rw [if_neg (fun hc => hr (hi.1 hc))]
      constructor
      · intro hh; cases hh
      · rintro ⟨w, rfl, hw, -⟩; exact absurd hw hr
  cases e with
  | integer v => exact key _ v h
  | unsigned v => exact key _ v h
  | integer64 v => exact key _ v h
  | unsigned64 v => exact key _ v h
  | double d => simp [parseNumber, parseDouble, eventInt]

example : parseNumber (.int ⟨.w8, true⟩) (.integer64 (-128)) = some (.int (-128)) :=
  (C13_parse_int_exact ⟨.w8, true⟩ (.integer64 (-128)) (by decide) _).2 ⟨-128, rfl, by decide, rfl⟩
example : parseNumber (.int ⟨.w8, true⟩) (.unsigned 128) = none := by decide
example : parseNumber (.int ⟨.w64, false⟩) (.unsigned64 (2 ^ 64 - 1)) = some (.int (2 ^ 64 - 1)) := by decide +kernel

/-- **C15.** Deserializing a DOM number into an integer type succeeds iff it is an integer in the range
of the type, and then stores exactly that integer. -/
theorem C15_deserialize_int_exact (t : IntTy) (j : JsonNum) (v : Int) :
    deserializeInt t j = .ok v ↔ j = .int v ∧ t.InRange v := by
  cases j with
  | dbl d => simp [deserializeInt]
  | int w =>
    simp only [deserializeInt, JsonNum.is, decide_eq_true_eq]
    by_cases hw : t.InRange w
    · have h1 : (wideType t).InRange w := by
        obtain ⟨wd, s⟩ := t
        unfold IntTy.InRange at *
        cases wd <;> cases s <;> simp [wideType, IntTy.min, IntTy.max, Width.bits] at hw ⊢ <;> omega
      have h2 : checkRange t w = true := by
        unfold checkRange
        obtain ⟨ha, hb⟩ := hw
        split
        · simp; omega
        · simp; omega
      rw [if_pos h1, if_pos h2, t.cast_inRange w hw]
      constructor
      · intro h; cases h; exact ⟨rfl, hw⟩
      · rintro ⟨h, -⟩; cases h; rfl
    · have : ∀ x, ¬ ((JsonNum.int w = JsonNum.int x) ∧ t.InRange x) := by
        rintro x ⟨hx, hx'⟩; cases hx; exact hw hx'
      simp only [this, iff_false]
      split
      · rename_i h1
        have h2 : checkRange t w = false := by
          obtain ⟨wd, s⟩ := t
          unfold IntTy.InRange at *
          cases wd <;> cases s <;>
            simp [wideType, IntTy.min, IntTy.max, Width.bits, checkRange] at hw h1 ⊢ <;> omega
        rw [h2]; simp
      · simp

example : deserializeInt ⟨.w16, false⟩ (.int 65535) = .ok 65535 :=
  (C15_deserialize_int_exact _ _ _).2 ⟨rfl, by decide⟩
example : deserializeInt ⟨.w16, false⟩ (.int 65536) = .error .outOfRange := by rfl
example : deserializeInt ⟨.w16, false⟩ (.int (-1)) = .error .wrongType := by rfl

/-- The value part of the outcome of a deserialization. -/
def outcome {ε α : Type} : Except ε α → Option α
  | .ok a => some a
  | .error _ => none

/-- **C16, partial** (integer targets). Both readers accept the same numbers and give the same value. -/
theorem C16_readers_agree_int_partial (t : IntTy) (e : NumEvent) (h : e.Valid) :
    parseNumber (.int t) e = outcome (deserializeNumber (.int t) (JsonNum.ofEvent e)) := by
  have key : ∀ r, parseNumber (.int t) e = some r ↔ outcome (deserializeNumber (.int t) (JsonNum.ofEvent e)) = some r := by
    intro r
    rw [C13_parse_int_exact t e h]
    simp only [deserializeNumber]
    constructor
    · rintro ⟨v, hv, hr, rfl⟩
      have hj : JsonNum.ofEvent e = .int v := by cases e <;> simp_all [eventInt, JsonNum.ofEvent]
      rw [(C15_deserialize_int_exact t _ v).2 ⟨hj, hr⟩]
      rfl
    · intro ho
      cases hd : deserializeInt t (JsonNum.ofEvent e) with
      | error x => rw [hd] at ho; cases ho
      | ok v =>
        rw [hd] at ho
        obtain ⟨hj, hr⟩ := (C15_deserialize_int_exact t _ v).1 hd
        refine ⟨v, ?_, hr, ?_⟩
        · cases e <;> simp_all [eventInt, JsonNum.ofEvent]
        · cases ho; rfl
  cases hp : parseNumber (.int t) e with
  | some r => exact ((key r).1 hp).symm
  | none =>
    cases ho : outcome (deserializeNumber (.int t) (JsonNum.ofEvent e)) with
    | none => rfl
    | some r => rw [(key r).2 ho] at hp; cases hp

example : parseNumber (.int ⟨.w32, true⟩) (.unsigned 2147483648) = none ∧
    outcome (deserializeNumber (.int ⟨.w32, true⟩) (.int 2147483648)) = none := by decide

/-! ## Integers into floating-point -/

theorem isAssignableFltInt_eq (t : FltTy) (V : IntTy) (v : Int) : isAssignableFltInt t V v = true ↔
    (t.digits ≥ V.digits ∨ (V.signed = true ∧ v > -(2 ^ t.digits : Nat) ∧ v < (2 ^ t.digits : Nat)) ∨
      (V.signed = false ∧ v < (2 ^ t.digits : Nat))) := by
  unfold isAssignableFltInt
  split
  · simp_all
  · split
    · simp_all only [Bool.and_eq_true, decide_eq_true_eq]; simp
    · simp_all only [decide_eq_true_eq]; simp

theorem isAssignableFltInt_iff (t : FltTy) (e : NumEvent) (h : e.Valid) (v : Int) (hv : eventInt e = some v) :
    (∃ r, parseNumber (.flt t) e = some r) ↔ v.natAbs < 2 ^ t.digits := by
  have key : ∀ (V : IntTy), V = i32 ∨ V = u32 ∨ V = i64 ∨ V = u64 → V.InRange v →
      ((∃ r, parseInt (.flt t) V v = some r) ↔ v.natAbs < 2 ^ t.digits) := by
    intro V hV hr
    have : isAssignableFltInt t V v = true ↔ v.natAbs < 2 ^ t.digits := by
      unfold IntTy.InRange at hr
      rw [isAssignableFltInt_eq]
      rcases hV with rfl | rfl | rfl | rfl <;> cases t <;>
        simp [IntTy.digits, FltTy.digits, i32, u32, i64, u64, Width.bits,
          IntTy.min, IntTy.max] at hr ⊢ <;> omega
    rw [← this]
    unfold parseInt
    simp only
    split <;> simp_all
  cases e <;> simp only [eventInt, Option.some.injEq, reduceCtorEq] at hv <;> subst hv
  · exact key _ (by simp) h
  · exact key _ (by simp) h
  · exact key _ (by simp) h
  · exact key _ (by simp) h

/-- **C14, partial.** A parsed integer is accepted for a floating-point target iff its magnitude is below
`2^digits` (24 or 53 bits); then the stored value is a value of the type and equals the integer.
Missing: larger integers that are exactly representable are rejected (see `C14_power_rejected`). -/
theorem C14_int_to_float_partial (t : FltTy) (e : NumEvent) (h : e.Valid) (v : Int) (hv : eventInt e = some v) :
    ((∃ r, parseNumber (.flt t) e = some r) ↔ v.natAbs < 2 ^ t.digits) ∧
    (∀ r, parseNumber (.flt t) e = some r → ∃ f, r = .flt f ∧ f.Fits t ∧ EqInt f v) := by
  refine ⟨isAssignableFltInt_iff t e h v hv, ?_⟩
  intro r hr
  have hb := (isAssignableFltInt_iff t e h v hv).1 ⟨r, hr⟩
  have hex := castInt_exact t v hb
  have hres : r = .flt (Flt.castInt t v) := by
    cases e <;> simp only [eventInt, Option.some.injEq, reduceCtorEq] at hv <;> subst hv <;>
      (simp only [parseNumber, parseInt] at hr; split at hr <;> simp_all)
  rw [hex] at hres
  exact ⟨_, hres, ofInt_fits t v hb, eqInt_ofInt v⟩

example : parseNumber (.flt .float) (.integer (-16777215)) = some (.flt (.fin true 8388607 0)) := by decide +kernel
example : ∃ f, NumVal.flt (.fin true 8388607 0) = .flt f ∧ f.Fits .float ∧ EqInt f (-16777215) :=
  (C14_int_to_float_partial .float (.integer (-16777215)) (by decide) _ rfl).2 _ (by decide +kernel)

/-- **C14, full statement refuted.** 2^24 and 2^53 are exactly representable but rejected. -/
theorem C14_power_rejected (t : FltTy) :
    Representable t (2 ^ t.digits : Nat) ∧ NumEvent.Valid (.unsigned64 (2 ^ t.digits : Nat)) ∧
    parseNumber (.flt t) (.unsigned64 (2 ^ t.digits : Nat)) = none := by
  cases t
  · exact ⟨⟨.fin false 0 24, by decide, by decide, by decide⟩, by decide, by decide⟩
  · exact ⟨⟨.fin false 0 53, by decide, by decide, by decide⟩, by decide, by decide⟩

/-- **C16, partial** (floating-point targets). Whatever number the streaming parser accepts, the DOM reader
accepts with the same value. Missing: the converse, see `C16_dom_accepts_more`. -/
theorem C16_readers_agree_float_partial (t : FltTy) (e : NumEvent) (h : e.Valid) (r : NumVal)
    (hr : parseNumber (.flt t) e = some r) :
    outcome (deserializeNumber (.flt t) (JsonNum.ofEvent e)) = some r := by
  have hdig : ∀ v : Int, v.natAbs < 2 ^ t.digits → v.natAbs < 2 ^ FltTy.double.digits := by
    intro v hv
    refine Nat.lt_of_lt_of_le hv (Nat.pow_le_pow_right (by omega) ?_)
    cases t <;> decide
  cases hv : eventInt e with
  | none =>
    cases e <;> simp only [eventInt, reduceCtorEq] at hv
    rename_i d
    simp only [parseNumber, parseDouble] at hr
    split at hr
    · simp only [outcome, deserializeNumber, deserializeFlt, JsonNum.ofEvent, JsonNum.getDouble]
      exact hr
    · cases hr
  | some v =>
    have hb := (isAssignableFltInt_iff t e h v hv).1 ⟨r, hr⟩
    have hj : JsonNum.ofEvent e = .int v := by cases e <;> simp_all [eventInt, JsonNum.ofEvent]
    have hres : r = .flt (Flt.castInt t v) := by
      cases e <;> simp only [eventInt, Option.some.injEq, reduceCtorEq] at hv <;> subst hv <;>
        (simp only [parseNumber, parseInt] at hr; split at hr <;> simp_all)
    rw [hj, hres]
    simp only [outcome, deserializeNumber, deserializeFlt, JsonNum.getDouble]
    rw [castInt_exact .double v (hdig v hb)]
    rfl

example : outcome (deserializeNumber (.flt .float) (.dbl (.fin false 5 (-3)))) = some (.flt (.fin false 5 (-3))) :=
  C16_readers_agree_float_partial .float (.double (.fin false 5 (-3))) (by decide) _ (by decide +kernel)

/-- **C16, full statement refuted.** 2^24+1 is rejected by the parser for `float`, while the DOM reader
accepts it and stores 2^24; 1e39-ish doubles are rejected by the parser and become infinite. -/
theorem C16_dom_accepts_more :
    (parseNumber (.flt .float) (.unsigned 16777217) = none ∧
      outcome (deserializeNumber (.flt .float) (.int 16777217)) = some (.flt (.fin false 0 24))) ∧
    (parseNumber (.flt .float) (.double (.fin false 0 128)) = none ∧
      outcome (deserializeNumber (.flt .float) (.dbl (.fin false 0 128))) = some (.flt (.inf false))) := by
  decide +kernel

/-! ## Floating-point into floating-point -/

/-- **C17, partial.** A double target receives exactly the number reported by the reader, from both readers.
A float target receives a finite value of the type from the streaming parser, and both readers are exact
for numbers that are `float` values. Missing: other numbers are rounded silently, see `C17_silent_loss`. -/
theorem C17_float_exact_partial (d : Flt) (h : d.Fits .double) :
    parseNumber (.flt .double) (.double d) = some (.flt d) ∧
    deserializeNumber (.flt .double) (.dbl d) = .ok (.flt d) ∧
    (d.Fits .float → d.isFinite → withinRange .float d = true →
      parseNumber (.flt .float) (.double d) = some (.flt d)) ∧
    (d.Fits .float → deserializeNumber (.flt .float) (.dbl d) = .ok (.flt d)) ∧
    (∀ r, parseNumber (.flt .float) (.double d) = some r → ∃ f, r = .flt f ∧ f.isFinite = true ∧ f.Fits .float) := by
  refine ⟨?_, ?_, ?_, ?_, ?_⟩
  · simp [parseNumber, parseDouble, isAssignableFltFlt, round_fits _ _ h]
  · simp [deserializeNumber, deserializeFlt, JsonNum.getDouble, round_fits _ _ h]
  · intro hf _ hw
    simp [parseNumber, parseDouble, isAssignableFltFlt, FltTy.size, hw, round_fits _ _ hf]
  · intro hf
    simp [deserializeNumber, deserializeFlt, JsonNum.getDouble, round_fits _ _ hf]
  · intro r hr
    simp only [parseNumber, parseDouble] at hr
    split at hr
    · rename_i hw
      have hw : withinRange .float d = true := by simpa [isAssignableFltFlt, FltTy.size] using hw
      cases hr
      exact ⟨_, rfl, round_finite _ _ hw, round_fits_result _ _⟩
    · cases hr

/-- Every finite `float` value lies in the range checked by the parser. -/
theorem withinRange_of_fits (t : FltTy) (f : Flt) (h : f.Fits t) (hf : f.isFinite = true) : withinRange t f = true := by
  cases f with
  | nan => cases hf
  | inf => cases hf
  | zero => rfl
  | fin neg k e =>
    obtain ⟨h1, h2, h3⟩ := h
    simp only [withinRange, dyadicLe, decide_eq_true_eq]
    have hm := bitLen_le_iff.1 (Nat.le_refl (bitLen (2 * k + 1)))
    by_cases he : e ≤ t.emax
    · have : (e - t.emax).toNat = 0 := by omega
      rw [this, Nat.pow_zero, Nat.mul_one]
      have hm' := bitLen_le_iff.1 h1
      have hp : 1 ≤ 2 ^ (t.emax - e).toNat := Nat.pow_pos (by omega)
      calc 2 * k + 1 ≤ (2 ^ t.digits - 1) * 1 := by omega
        _ ≤ _ := Nat.mul_le_mul_left _ hp
    · have : (t.emax - e).toNat = 0 := by omega
      rw [this, Nat.pow_zero, Nat.mul_one]
      have hb := bitLen_mul_pow (m := 2 * k + 1) (by omega) (e - t.emax).toNat
      have : bitLen ((2 * k + 1) * 2 ^ (e - t.emax).toNat) ≤ t.digits := by omega
      have := bitLen_le_iff.1 this
      omega

/-- **C17, partial.** Every finite `float` value written as a number is read back exactly by both readers. -/
theorem C17_float_values_exact_partial (f : Flt) (h : f.Fits .float) (hf : f.isFinite = true) :
    parseNumber (.flt .float) (.double f) = some (.flt f) ∧
    deserializeNumber (.flt .float) (.dbl f) = .ok (.flt f) :=
  ⟨(C17_float_exact_partial f (fits_double_of_float f h)).2.2.1 h hf (withinRange_of_fits _ _ h hf),
   (C17_float_exact_partial f (fits_double_of_float f h)).2.2.2.1 h⟩

example : parseNumber (.flt .float) (.double (.fin true 6710886 (-27))) = some (.flt (.fin true 6710886 (-27))) :=
  (C17_float_values_exact_partial _ (by decide) (by decide)).1

/-- The `double` nearest to 0.1. -/
def tenth : Flt := .fin false 1801439850948198 (-55)

/-- **C17, full statement refuted.** The number 0.1 is accepted for a `float` by both readers although the stored value
differs; the DOM reader even turns a finite number into infinity. -/
theorem C17_silent_loss :
    tenth.Fits .double ∧
    parseNumber (.flt .float) (.double tenth) = some (.flt (.fin false 6710886 (-27))) ∧
    outcome (deserializeNumber (.flt .float) (.dbl tenth)) = some (.flt (.fin false 6710886 (-27))) ∧
    tenth ≠ .fin false 6710886 (-27) ∧
    outcome (deserializeNumber (.flt .float) (.dbl (.fin false 0 1000))) = some (.flt (.inf false)) := by
  decide +kernel

end Verif.Props
