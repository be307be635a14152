import Verif.Numeric

/-! # Lemmas about numbers -/

namespace Verif.Numeric

theorem IntTy.cast_inRange (t : IntTy) (v : Int) (h : t.InRange v) : t.cast v = v := by
  obtain ⟨w, s⟩ := t
  obtain ⟨h1, h2⟩ := h
  cases w <;> cases s <;>
    simp [IntTy.cast, IntTy.min, IntTy.max, Width.bits] at h1 h2 ⊢ <;>
    first
    | omega
    | (split <;> omega)

theorem IntTy.cast_range (t : IntTy) (v : Int) : t.InRange (t.cast v) := by
  obtain ⟨w, s⟩ := t
  unfold IntTy.InRange
  cases w <;> cases s <;>
    simp [IntTy.cast, IntTy.min, IntTy.max, Width.bits] <;>
    first
    | omega
    | (split <;> omega)

theorem isAssignableIntInt_iff (T V : IntTy) (v : Int) (hv : V.InRange v) :
    isAssignableIntInt T V v = true ↔ T.InRange v := by
  obtain ⟨w, s⟩ := T
  obtain ⟨w', s'⟩ := V
  unfold IntTy.InRange at *
  cases w <;> cases s <;> cases w' <;> cases s' <;>
    simp [isAssignableIntInt, IntTy.min, IntTy.max, Width.bits] at hv ⊢ <;> omega

theorem bitLen_pos {m : Nat} (h : m ≠ 0) : 2 ^ (bitLen m - 1) ≤ m := by
  simp only [bitLen, h, if_false, Nat.add_sub_cancel]
  exact Nat.log2_self_le h

theorem lt_bitLen (m : Nat) : m < 2 ^ bitLen m := by
  unfold bitLen
  split
  · subst m; simp
  · exact Nat.lt_log2_self

theorem bitLen_le_iff {m n : Nat} : bitLen m ≤ n ↔ m < 2 ^ n := by
  constructor
  · intro h
    exact Nat.lt_of_lt_of_le (lt_bitLen m) (Nat.pow_le_pow_right (by omega) h)
  · intro h
    by_cases hm : m = 0
    · simp [bitLen, hm]
    · have h1 := bitLen_pos hm
      have h2 : 2 ^ (bitLen m - 1) < 2 ^ n := Nat.lt_of_le_of_lt h1 h
      have h3 := (Nat.pow_lt_pow_iff_right (a := 2) (by omega)).1 h2
      have : bitLen m ≠ 0 := by simp [bitLen, hm]
      omega

theorem bitLen_mono {m n : Nat} (h : m ≤ n) : bitLen m ≤ bitLen n :=
  bitLen_le_iff.2 (Nat.lt_of_le_of_lt h (lt_bitLen n))

theorem bitLen_double {m : Nat} (h : m ≠ 0) : bitLen (2 * m) = bitLen m + 1 := by
  apply Nat.le_antisymm
  · rw [bitLen_le_iff, Nat.pow_succ]
    have := lt_bitLen m
    omega
  · have h1 := bitLen_pos h
    have h0 : bitLen m ≠ 0 := by simp [bitLen, h]
    have : ¬ bitLen (2 * m) ≤ bitLen m := by
      rw [bitLen_le_iff]
      intro hc
      have : 2 ^ bitLen m = 2 * 2 ^ (bitLen m - 1) := by
        conv => lhs; rw [show bitLen m = (bitLen m - 1) + 1 by omega, Nat.pow_succ]
        omega
      omega
    omega

theorem bitLen_mul_pow {m : Nat} (h : m ≠ 0) (n : Nat) : bitLen (m * 2 ^ n) = bitLen m + n := by
  induction n with
  | zero => simp
  | succ n ih =>
    have : m * 2 ^ (n + 1) = 2 * (m * 2 ^ n) := by rw [Nat.pow_succ]; ac_rfl
    rw [this, bitLen_double, ih, Nat.add_assoc]
    exact Nat.mul_ne_zero h (by exact Nat.pos_iff_ne_zero.1 (Nat.pow_pos (by omega)))

theorem norm_odd (neg : Bool) (k : Nat) (e : Int) : norm neg (2 * k + 1) e = .fin neg k e := by
  unfold norm
  rw [normFuel]
  rw [if_neg (by omega), if_pos (by omega)]
  congr 1
  omega

theorem normFuel_irrel (m n n' : Nat) (neg : Bool) (e : Int) (h : m ≤ n) (h' : m ≤ n') :
    normFuel n neg m e = normFuel n' neg m e := by
  induction m using Nat.strongRecOn generalizing n n' e with
  | ind m ih =>
    by_cases h0 : m = 0
    · subst h0
      cases n <;> cases n' <;> simp [normFuel]
    · cases n with
      | zero => omega
      | succ n =>
        cases n' with
        | zero => omega
        | succ n' =>
          rw [normFuel, normFuel, if_neg h0, if_neg h0]
          split
          · rfl
          · exact ih (m / 2) (by omega) n n' (e + 1) (by omega) (by omega)

theorem normFuel_of_le (n m : Nat) (neg : Bool) (e : Int) (h : m ≤ n) :
    normFuel n neg m e = norm neg m e :=
  normFuel_irrel m n m neg e h (Nat.le_refl _)

theorem norm_double (neg : Bool) (m : Nat) (e : Int) (h : m ≠ 0) : norm neg (2 * m) e = norm neg m (e + 1) := by
  have : 2 * m = (2 * m - 1) + 1 := by omega
  unfold norm
  rw [this, normFuel, if_neg (by omega), if_neg (by omega), show (2 * m - 1 + 1) / 2 = m by omega]
  exact normFuel_of_le _ _ _ _ (by omega)

theorem norm_mul_pow (neg : Bool) (m : Nat) (e : Int) (h : m ≠ 0) (n : Nat) :
    norm neg (m * 2 ^ n) e = norm neg m (e + n) := by
  induction n generalizing e with
  | zero => simp
  | succ n ih =>
    have : m * 2 ^ (n + 1) = 2 * (m * 2 ^ n) := by rw [Nat.pow_succ]; ac_rfl
    rw [this, norm_double _ _ _ (Nat.mul_ne_zero h (Nat.pos_iff_ne_zero.1 (Nat.pow_pos (by omega)))), ih]
    congr 1
    omega

theorem exists_odd (m : Nat) (h : m ≠ 0) : ∃ k n, m = (2 * k + 1) * 2 ^ n := by
  induction m using Nat.strongRecOn with
  | ind m ih =>
    by_cases ho : m % 2 = 1
    · exact ⟨m / 2, 0, by omega⟩
    · obtain ⟨k, n, hk⟩ := ih (m / 2) (by omega) (by omega)
      refine ⟨k, n + 1, ?_⟩
      rw [Nat.pow_succ, ← Nat.mul_assoc, ← hk]
      omega

theorem round_fits (t : FltTy) (f : Flt) (h : f.Fits t) : f.round t = f := by
  cases f with
  | fin neg k e =>
    obtain ⟨h1, h2, h3⟩ := h
    simp only [Flt.round, roundPos]
    rw [if_pos (by omega), if_pos h3, norm_odd]
  | _ => rfl

theorem double_round (d : Flt) (h : d.Fits .double) : d.round .double = d := round_fits _ _ h

theorem fits_double_of_float (f : Flt) (h : f.Fits .float) : f.Fits .double := by
  cases f with
  | fin neg k e =>
    simp only [Flt.Fits, FltTy.digits, FltTy.emin, FltTy.emax] at h ⊢
    omega
  | _ => trivial

theorem ofInt_fits (t : FltTy) (v : Int) (h : v.natAbs < 2 ^ t.digits) : (Flt.ofInt v).Fits t := by
  unfold Flt.ofInt
  by_cases h0 : v.natAbs = 0
  · rw [h0]; simp [norm, normFuel, Flt.Fits]
  · obtain ⟨k, n, hk⟩ := exists_odd _ h0
    rw [hk, norm_mul_pow _ _ _ (by omega), norm_odd]
    have hb := bitLen_mul_pow (m := 2 * k + 1) (by omega) n
    rw [← hk] at hb
    have hl := bitLen_le_iff.2 h
    have : t.emin ≤ 0 ∧ 0 ≤ t.emax := by cases t <;> decide
    refine ⟨by omega, by omega, by omega⟩

theorem castInt_exact (t : FltTy) (v : Int) (h : v.natAbs < 2 ^ t.digits) : Flt.castInt t v = Flt.ofInt v :=
  round_fits _ _ (ofInt_fits t v h)

theorem norm_ne (neg : Bool) (m : Nat) (e : Int) : (norm neg m e).isFinite = true := by
  by_cases h : m = 0
  · subst h; rfl
  · obtain ⟨k, n, rfl⟩ := exists_odd m h
    rw [norm_mul_pow _ _ _ (by omega), norm_odd]
    rfl

theorem norm_fits (t : FltTy) (neg : Bool) (m : Nat) (e : Int) (h1 : bitLen m ≤ t.digits) (h2 : t.emin ≤ e)
    (h3 : (bitLen m : Int) + e ≤ t.digits + t.emax) : (norm neg m e).Fits t := by
  by_cases h : m = 0
  · subst h; simp [norm, normFuel, Flt.Fits]
  · obtain ⟨k, n, rfl⟩ := exists_odd m h
    rw [norm_mul_pow _ _ _ (by omega), norm_odd]
    rw [bitLen_mul_pow (by omega)] at h1 h3
    refine ⟨by omega, by omega, by omega⟩

/-- The result of a conversion is a value of the target format. -/
theorem round_fits_result (t : FltTy) (f : Flt) : (f.round t).Fits t := by
  cases f with
  | fin neg k e =>
    simp only [Flt.round, roundPos]
    have hpos : bitLen (2 * k + 1) ≠ 0 := by simp [bitLen]
    split
    · rename_i hq
      split
      · rename_i h3
        exact norm_fits t neg _ e (by omega) (by omega) h3
      · trivial
    · rename_i hq
      generalize hq' : max t.emin (e + ↑(bitLen (2 * k + 1)) - ↑t.digits) = q at *
      generalize hi'' : (if 2 ^ ((q - e).toNat - 1) < (2 * k + 1) % 2 ^ (q - e).toNat ∨
        (2 * k + 1) % 2 ^ (q - e).toNat = 2 ^ ((q - e).toNat - 1) ∧
          (2 * k + 1) / 2 ^ (q - e).toNat % 2 = 1 then (2 * k + 1) / 2 ^ (q - e).toNat + 1
        else (2 * k + 1) / 2 ^ (q - e).toNat) = hi' at *
      split
      · rename_i h3
        have hcase : hi' = (2 * k + 1) / 2 ^ (q - e).toNat ∨ hi' = (2 * k + 1) / 2 ^ (q - e).toNat + 1 := by
          rw [← hi'']; split
          · exact Or.inr rfl
          · exact Or.inl rfl
        have hbound : bitLen hi' ≤ t.digits ∨ hi' = 2 ^ t.digits := by
          have hlt := lt_bitLen (2 * k + 1)
          have hle : bitLen (2 * k + 1) ≤ t.digits + (q - e).toNat := by omega
          have hlt' : 2 * k + 1 < 2 ^ t.digits * 2 ^ (q - e).toNat := by
            rw [← Nat.pow_add]
            exact Nat.lt_of_lt_of_le hlt (Nat.pow_le_pow_right (by omega) hle)
          have hq : (2 * k + 1) / 2 ^ (q - e).toNat < 2 ^ t.digits :=
            (Nat.div_lt_iff_lt_mul (Nat.pow_pos (by omega))).2 hlt'
          rcases hcase with h | h
          · left; rw [bitLen_le_iff]; omega
          · by_cases hc : hi' = 2 ^ t.digits
            · exact Or.inr hc
            · left; rw [bitLen_le_iff]; omega
        rcases hbound with hb | hb
        · exact norm_fits t neg _ q hb (by omega) h3
        · have hpow : hi' = 1 * 2 ^ t.digits := by omega
          have hb1 : bitLen 1 = 1 := by decide
          have hbl : bitLen hi' = 1 + t.digits := by
            rw [hpow, bitLen_mul_pow (by omega), hb1]
          rw [hpow, norm_mul_pow _ _ _ (by omega)]
          have hd : 1 ≤ t.digits := by cases t <;> decide
          exact norm_fits t neg 1 _ (by omega) (by omega) (by omega)
      · trivial
  | _ => trivial

/-- A value within the range of the format is converted to a finite value. -/
theorem round_finite (t : FltTy) (f : Flt) (h : withinRange t f = true) : (f.round t).isFinite = true := by
  cases f with
  | nan => simp [withinRange] at h
  | inf => simp [withinRange] at h
  | zero => rfl
  | fin neg k e =>
    simp only [withinRange, dyadicLe, decide_eq_true_eq] at h
    have hd : 1 ≤ t.digits := by cases t <;> decide
    have hem : t.emin ≤ t.emax := by cases t <;> decide
    have hpow : 0 < 2 ^ t.digits := Nat.pow_pos (by omega)
    have hbmax : bitLen (2 ^ t.digits - 1) = t.digits := by
      apply Nat.le_antisymm
      · rw [bitLen_le_iff]; omega
      · have : ¬ bitLen (2 ^ t.digits - 1) ≤ t.digits - 1 := by
          rw [bitLen_le_iff]
          have : 2 ^ t.digits = 2 * 2 ^ (t.digits - 1) := by
            conv => lhs; rw [show t.digits = (t.digits - 1) + 1 by omega, Nat.pow_succ]
            omega
          have := Nat.pow_pos (a := 2) (n := t.digits - 1) (by omega)
          omega
        omega
    have hM : (2 ^ t.digits - 1) ≠ 0 := by
      intro hc
      rw [hc] at hbmax
      simp [bitLen] at hbmax
      omega
    -- leading bit not above that of the largest value
    have hlead : (bitLen (2 * k + 1) : Int) + e ≤ t.digits + t.emax := by
      have hb := bitLen_mono h
      rw [bitLen_mul_pow (by omega), bitLen_mul_pow hM, hbmax] at hb
      omega
    simp only [Flt.round, roundPos, hlead, if_true]
    split
    · exact norm_ne _ _ _
    · rename_i hq
      generalize hq' : max t.emin (e + ↑(bitLen (2 * k + 1)) - ↑t.digits) = q at *
      generalize hi'' : (if 2 ^ ((q - e).toNat - 1) < (2 * k + 1) % 2 ^ (q - e).toNat ∨
        (2 * k + 1) % 2 ^ (q - e).toNat = 2 ^ ((q - e).toNat - 1) ∧
          (2 * k + 1) / 2 ^ (q - e).toNat % 2 = 1 then (2 * k + 1) / 2 ^ (q - e).toNat + 1
        else (2 * k + 1) / 2 ^ (q - e).toNat) = hi' at *
      rw [if_pos]
      · exact norm_ne _ _ _
      · have hcase : hi' ≤ (2 * k + 1) / 2 ^ (q - e).toNat + 1 := by
          rw [← hi'']; split <;> omega
        have hlt' : 2 * k + 1 < 2 ^ t.digits * 2 ^ (q - e).toNat := by
          rw [← Nat.pow_add]
          exact Nat.lt_of_lt_of_le (lt_bitLen (2 * k + 1)) (Nat.pow_le_pow_right (by omega) (by omega))
        have hqlt : (2 * k + 1) / 2 ^ (q - e).toNat < 2 ^ t.digits :=
          (Nat.div_lt_iff_lt_mul (Nat.pow_pos (by omega))).2 hlt'
        have hqle : q ≤ t.emax := by omega
        by_cases hqe : q = t.emax
        · -- top binade: exact bound
          have he : (e - t.emax).toNat = 0 := by omega
          have he2 : (t.emax - e).toNat = (q - e).toNat := by omega
          rw [he, he2, Nat.pow_zero, Nat.mul_one] at h
          have hle : hi' ≤ 2 ^ t.digits - 1 := by
            by_cases hlt : (2 * k + 1) / 2 ^ (q - e).toNat < 2 ^ t.digits - 1
            · omega
            · have heq : (2 * k + 1) / 2 ^ (q - e).toNat = 2 ^ t.digits - 1 := by omega
              have hdm := Nat.div_add_mod (2 * k + 1) (2 ^ (q - e).toNat)
              rw [heq, Nat.mul_comm] at hdm
              have hr : (2 * k + 1) % 2 ^ (q - e).toNat = 0 := by omega
              have hhalf : 0 < 2 ^ ((q - e).toNat - 1) := Nat.pow_pos (by omega)
              rw [← hi'', hr, if_neg (by omega), heq]
              exact Nat.le_refl _
          have := bitLen_mono hle
          omega
        · have hb : bitLen hi' ≤ t.digits + 1 := by
            rw [bitLen_le_iff, Nat.pow_succ]
            omega
          omega

end Verif.Numeric
