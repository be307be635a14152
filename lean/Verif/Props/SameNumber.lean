import Verif.SameNumber
import Verif.ParseMeaning
import Verif.Props.Parse

/-!
# Property C121: equal numbers are read alike

The same number can be written with or without a fraction or an exponent: `100`, `100.0`, `1e2`. RapidJSON reports the first one as an integer, the others as a `double`.
Specification: `SameNumber` compares the numbers, `DocAlike` documents that differ in their numbers only, `NoIntegers` says that no integer occurs in a type.
-/

namespace Verif.Props
open Verif.Core Verif.Numeric Verif.Numerals Verif.Demo

/-- The numbers are the same, also if one is an integer and the other one a `double`. The negative zero is no integer. -/
inductive SameNumber : JsonNum → JsonNum → Prop
  | same (n : JsonNum) : SameNumber n n
  | point (v : Int) (d : Flt) : EqInt d v → d ≠ .zero true → d.Fits .double → SameNumber (.int v) (.dbl d)
  | noPoint (v : Int) (d : Flt) : EqInt d v → d ≠ .zero true → d.Fits .double → SameNumber (.dbl d) (.int v)

/-- The numbers are the same, and integers that are written in two ways have at most `b` bits. -/
def SameSmall (b : Nat) (m n : JsonNum) : Prop := SameNumber m n ∧ (m = n ∨ ∀ v, m = .int v ∨ n = .int v → v.natAbs < 2 ^ b)

/-- No integer type and no enumeration without names occurs in the type. -/
def NoIntegers (env : Env) (t : Ty) : Prop := ∀ i, ¬ Within env t (.prim (.int i)) ∧ ¬ Within env t (.prim (.enumInt i))

theorem eqInt_unique (v : Int) (d : Flt) (h : EqInt d v) (hz : d ≠ .zero true) : d = Flt.ofInt v := by
  cases d with
  | zero neg =>
    cases neg with
    | true => exact absurd rfl hz
    | false => cases h; rfl
  | fin neg k e =>
    obtain ⟨h1, h2⟩ := h
    unfold Flt.ofInt
    have hpos : 0 < (2 * k + 1) * 2 ^ e.toNat := Nat.mul_pos (by omega) (Nat.pow_pos (by omega))
    have ha : v.natAbs = (2 * k + 1) * 2 ^ e.toNat := by
      rw [h2]
      generalize (2 * k + 1) * 2 ^ e.toNat = x
      cases neg <;> simp only [Bool.false_eq_true, if_false, if_true] <;> omega
    have hn : decide (v < 0) = neg := by
      rw [h2]
      cases neg <;> simp only [Bool.false_eq_true, if_false, if_true, decide_eq_true_eq, decide_eq_false_iff_not] <;> omega
    rw [ha, hn, norm_mul_pow _ _ _ (by omega), norm_odd]
    congr 1
    omega
  | _ => exact absurd h id

theorem same_double {m n : JsonNum} (h : SameNumber m n) : m.getDouble = n.getDouble := by
  cases h with
  | same => rfl
  | point v d h hz hf =>
    have := eqInt_unique v d h hz
    subst this
    exact round_fits .double _ hf
  | noPoint v d h hz hf =>
    have := eqInt_unique v d h hz
    subst this
    exact (round_fits .double _ hf).symm

theorem small_parse (v : Int) (d : Flt) (h : EqInt d v) (hz : d ≠ .zero true) (hf : d.Fits .double) (t : FltTy) (hv : v.natAbs < 2 ^ t.digits) :
    numParse (.flt t) (.int v) = numParse (.flt t) (.dbl d) := by
  have := eqInt_unique v d h hz
  subst this
  have hd : v.natAbs < 2 ^ 53 := Nat.lt_of_lt_of_le hv (by cases t <;> decide)
  have hp : (Json.num (.int v)).proper = true := by
    simp only [Json.proper, IntTy.min, IntTy.max, i64, u64, Width.bits]
    simp
    omega
  rw [numParse_flt t (.int v) hp]
  simp only [floatMeaning, if_pos hv]
  cases t with
  | double => simp only [numParse, classify, parseNumber, parseDouble, isAssignableFltFlt, FltTy.size, Nat.le_refl, ge_iff_le, if_true, round_fits .double _ hf]; rfl
  | float =>
    have hw := withinRange_of_fits .float _ (ofInt_fits .float v hv) (norm_ne _ _ _)
    have h4 : isAssignableFltFlt .float .double (Flt.ofInt v) = true := hw
    simp only [numParse, classify, parseNumber, parseDouble, h4, if_true, round_fits .float _ (ofInt_fits .float v hv)]
    rfl

theorem same_parse {b : Nat} {m n : JsonNum} (h : SameSmall b m n) (t : FltTy) (hb : b ≤ t.digits) : numParse (.flt t) m = numParse (.flt t) n := by
  have hp : 2 ^ b ≤ 2 ^ t.digits := Nat.pow_le_pow_right (by omega) hb
  obtain ⟨h1, rfl | h2⟩ := h
  · rfl
  · cases h1 with
    | same => rfl
    | point v d h hz hf => exact small_parse v d h hz hf t (Nat.lt_of_lt_of_le (h2 v (.inl rfl)) hp)
    | noPoint v d h hz hf => exact (small_parse v d h hz hf t (Nat.lt_of_lt_of_le (h2 v (.inr rfl)) hp)).symm

theorem within_of (env : Env) (S : Ty → Prop) (h1 : ∀ u v, S u → Inner env u v → S v) (t : Ty) (ht : S t) (u : Ty) (hu : Within env t u) : S u := by
  induction hu with
  | self => exact ht
  | inner t1 t2 _ h ih => exact h1 _ _ ih h

/-- **C121, partial.** If no integer occurs in a type, then documents that differ only in the way in which the same numbers are written are read alike by `deserialize`, also into a variable that
held something before: the same value, or the same failure with the same text and the same place. References, enumerations with names, variants and sets are included. Missing: types with
integers (`C121_integers`), variants with integers as alternatives (`C121_variant`), the sign of zero (`C121_zero`). -/
theorem C121_dom_partial (env : Env) (t : Ty) (ht : NoIntegers env t) (j j' : Json) (h : DocAlike SameNumber j j') (target : Val) (next : Nat) :
    deserializeBool env t j target next = deserializeBool env t j' target next ∧ deserializeThrow env t j next = deserializeThrow env t j' next := by
  have key := deser_alike (L := fun p => ∀ i, p ≠ .int i ∧ p ≠ .enumInt i) env (fun m n hmn p hp => by
    cases p with
    | int i => exact absurd rfl (hp i).1
    | enumInt i => exact absurd rfl (hp i).2
    | flt t => simp only [desPrim, deserializeFlt, same_double hmn]
    | _ => rfl) h h t fun p hp i => ⟨fun e => (ht i).1 (e ▸ hp), fun e => (ht i).2 (e ▸ hp)⟩
  unfold deserializeBool deserializeThrow
  rw [key, key]
  exact ⟨rfl, rfl⟩

/-- **C121, partial.** The same for the streaming parser, if integers that are written in two ways have at most as many bits as the floating-point types that occur in the type (53 for
`double`, 24 for `float`). Missing: longer integers, which the parser refuses without a decimal point and accepts with it (`C121_integers`). -/
theorem C121_parser_partial (env : Env) (host : Host) (t : Ty) (ht : NoIntegers env t) (b : Nat) (hb : ∀ f, Within env t (.prim (.flt f)) → b ≤ f.digits) (j j' : Json)
    (h : DocAlike (SameSmall b) j j') (target : Val) (n : Nat) :
    parseBool env host t (.document j) target n = parseBool env host t (.document j') target n ∧
    parseThrow env host t (.document j) n = parseThrow env host t (.document j') n := by
  have key := parse_alike (L := fun p => (∀ i, p ≠ .int i ∧ p ≠ .enumInt i) ∧ ∀ f, p = .flt f → b ≤ f.digits) env (fun m n hmn p hp => by
    cases p with
    | int i => exact absurd rfl (hp.1 i).1
    | enumInt i => exact absurd rfl (hp.1 i).2
    | flt t => exact same_parse hmn t (hp.2 t rfl)
    | _ => rfl) host t (fun p hp => ⟨fun i => ⟨fun e => (ht i).1 (e ▸ hp), fun e => (ht i).2 (e ▸ hp)⟩, fun f e => hb f (e ▸ hp)⟩) h
  unfold parseThrow
  rw [key, key]
  exact ⟨rfl, rfl⟩

/-- **C121.** For all number types: of two ways to write the same number, a reader may refuse one, but if it accepts both, it stores the same number. -/
theorem C121_never_differ (T : NumTy) (m n : JsonNum) (hm : m.Valid) (hn : n.Valid) (h : SameNumber m n) :
    (∀ x y, deserializeNumber T m = .ok x → deserializeNumber T n = .ok y → x = y) ∧
    (∀ x y, parseNumber T (classify m) = some x → parseNumber T (classify n) = some y → x = y) := by
  have dom : ∀ x y, deserializeNumber T m = .ok x → deserializeNumber T n = .ok y → x = y := by
    intro x y hx hy
    cases T with
    | flt t =>
      simp only [deserializeNumber, deserializeFlt, same_double h, Except.ok.injEq] at hx hy
      rw [← hx, ← hy]
    | int t =>
      cases h with
      | same => rw [hx] at hy; cases hy; rfl
      | point v d => cases hy
      | noPoint v d => cases hx
  refine ⟨dom, fun x y hx hy => ?_⟩
  cases T with
  | flt t =>
    have h1 := C16_readers_agree_float_partial t _ (classify_valid m hm) x hx
    have h2 := C16_readers_agree_float_partial t _ (classify_valid n hn) y hy
    rw [ofEvent_classify] at h1 h2
    simp only [outcome, deserializeNumber, deserializeFlt, same_double h, Option.some.injEq] at h1 h2
    rw [← h1, ← h2]
  | int t =>
    cases h with
    | same => rw [hx] at hy; cases hy; rfl
    | point v d => cases hy
    | noPoint v d => cases hx

/-- **C121, negation.** `1` is read into an `int`, `1.0` is not, by either reader; 2^53 is parsed into a `double` with a decimal point or an exponent, but not without. -/
theorem C121_integers :
    (SameNumber (.int 1) (.dbl (.fin false 0 0)) ∧ deserializeInt ⟨.w32, true⟩ (.int 1) = .ok 1 ∧ deserializeInt ⟨.w32, true⟩ (.dbl (.fin false 0 0)) = .error .wrongType ∧
      parseNumber (.int ⟨.w32, true⟩) (classify (.int 1)) = some (.int 1) ∧ parseNumber (.int ⟨.w32, true⟩) (classify (.dbl (.fin false 0 0))) = none) ∧
    (SameNumber (.int (2 ^ 53)) (.dbl (.fin false 0 53)) ∧ parseNumber (.flt .double) (classify (.int (2 ^ 53))) = none ∧
      parseNumber (.flt .double) (classify (.dbl (.fin false 0 53))) = some (.flt (.fin false 0 53))) := by
  refine ⟨⟨.point _ _ ⟨by decide, by decide⟩ (by decide) (by decide), ?_⟩, ⟨.point _ _ ⟨by decide, by decide⟩ (by decide) (by decide), ?_⟩⟩ <;> decide +kernel

/-- **C121, negation.** With a variant both are accepted and different values are read: `1` as the `int` of a `std::variant<int, double>`, `1.0` as the `double`. -/
theorem C121_variant (env : Env) (target : Val) (next : Nat) :
    deserializeBool env (.variant [.prim (.int ⟨.w32, true⟩), .prim (.flt .double)]) (.num (.int 1)) target next = some (true, .alt 0 (.prim (.int 1))) ∧
    deserializeBool env (.variant [.prim (.int ⟨.w32, true⟩), .prim (.flt .double)]) (.num (.dbl (.fin false 0 0))) target next =
      some (true, .alt 1 (.prim (.flt (.fin false 0 0)))) :=
  ⟨by with_unfolding_all rfl, by with_unfolding_all rfl⟩

/-- **C121, negation.** `0` (and `-0`, which RapidJSON reports as an unsigned integer) and `-0.0` are the same number, but zeros with different signs are read. -/
theorem C121_zero (env : Env) (t : FltTy) (target : Val) (next : Nat) :
    deserializeBool env (.prim (.flt t)) (.num (.int 0)) target next = some (true, .prim (.flt (.zero false))) ∧
    deserializeBool env (.prim (.flt t)) (.num (.dbl (.zero true))) target next = some (true, .prim (.flt (.zero true))) := by
  cases t <;> exact ⟨by with_unfolding_all rfl, by with_unfolding_all rfl⟩

theorem doubles_within (env : Env) (u : Ty) (h : Within env (.vec (.prim (.flt .double))) u) : u = .vec (.prim (.flt .double)) ∨ u = .prim (.flt .double) :=
  within_of env (fun t => t = .vec (.prim (.flt .double)) ∨ t = .prim (.flt .double))
    (fun u v h hi => by rcases h with rfl | rfl <;> cases hi; exact .inr rfl) _ (.inl rfl) u h

theorem floats_only (env : Env) : NoIntegers env (.vec (.prim (.flt .double))) :=
  fun i => ⟨fun h => by simpa using doubles_within env _ h, fun h => by simpa using doubles_within env _ h⟩

/-- `[4503599627370496, 0.5]` and `[4503599627370496.0, 0.5]`. -/
theorem twice_written : DocAlike (SameSmall 53) (.arr [.num (.int (2 ^ 52)), .num (.dbl (.fin false 0 (-1)))]) (.arr [.num (.dbl (.fin false 0 52)), .num (.dbl (.fin false 0 (-1)))]) :=
  .arr _ _ (.cons _ _ _ _ (.num _ _ ⟨.point _ _ ⟨by decide, by decide⟩ (by decide) (by decide), .inr fun v h => by rcases h with h | h <;> cases h; decide⟩)
    (.cons _ _ _ _ (.num _ _ ⟨.same _, .inl rfl⟩) .nil))

example (target : Val) : parseBool env host (.vec (.prim (.flt .double))) (.document (.arr [.num (.int (2 ^ 52)), .num (.dbl (.fin false 0 (-1)))])) target 0 =
    parseBool env host (.vec (.prim (.flt .double))) (.document (.arr [.num (.dbl (.fin false 0 52)), .num (.dbl (.fin false 0 (-1)))])) target 0 :=
  (C121_parser_partial env host _ (floats_only env) 53 (fun f h => by
    have := doubles_within env _ h
    simp only [reduceCtorEq, Ty.prim.injEq, Prim.flt.injEq, false_or] at this
    subst this
    decide) _ _ twice_written target 0).1

example : deserializeBool env (.vec (.prim (.flt .double))) (.arr [.num (.int (2 ^ 60)), .str [46]]) .nullptr 0 =
    deserializeBool env (.vec (.prim (.flt .double))) (.arr [.num (.dbl (.fin false 0 60)), .str [46]]) .nullptr 0 :=
  (C121_dom_partial env _ (floats_only env) _ _
    (.arr _ _ (.cons _ _ _ _ (.num _ _ (.point (2 ^ 60) (.fin false 0 60) ⟨by decide, by decide⟩ (by decide) (by decide))) (.cons _ _ _ _ (.str _) .nil))) _ _).1

example : deserializeBool env (.vec (.prim (.flt .double))) (.arr [.num (.dbl (.fin false 12 2))]) .nullptr 0 = some (true, .seq [.prim (.flt (.fin false 12 2))]) := by
  rw [← (C121_dom_partial env _ (floats_only env) _ _ (.arr _ _ (.cons _ _ _ _ (.num _ _ (.point 100 (.fin false 12 2) ⟨by decide, by decide⟩ (by decide) (by decide))) .nil)) _ _).1]
  with_unfolding_all rfl

example : ∀ x, parseNumber (.flt .float) (classify (.int 100)) = some x → x = .flt (.fin false 12 2) := fun x hx =>
  (C121_never_differ (.flt .float) _ _ (by decide) (by decide) (.point 100 (.fin false 12 2) ⟨by decide, by decide⟩ (by decide) (by decide))).2 x _ hx (by decide +kernel)

end Verif.Props
