import Verif.NumericLemmas
import Mathlib.Algebra.Order.Field.Power
import Mathlib.Algebra.Order.Field.Rat
import Mathlib.Tactic.Linarith
import Mathlib.Tactic.Ring

/-!
# Rounding

`Flt.round` (`Numeric`) is the meaning given to conversions to a floating-point type. Here it is compared with what
IEEE 754 requires: the value of the format nearest to the exact number, the even one if there are two.
-/

namespace Verif.Numeric

/-- The number that a finite value stands for. -/
def Flt.toRat : Flt → ℚ
  | .fin neg k e => (if neg then -1 else 1) * ((2 * k + 1 : ℕ) : ℚ) * 2 ^ e
  | _ => 0

theorem pow_pos' (q : ℤ) : (0 : ℚ) < 2 ^ q := zpow_pos (by norm_num) q

theorem normFuel_toRat (n : Nat) : ∀ (neg : Bool) (m : Nat) (e : Int), m ≤ n →
    (normFuel n neg m e).toRat = (if neg then -1 else 1) * (m : ℚ) * 2 ^ e := by
  induction n with
  | zero =>
    intro neg m e h
    have : m = 0 := by omega
    subst this
    simp [normFuel, Flt.toRat]
  | succ n ih =>
    intro neg m e h
    rw [normFuel]
    split
    · rename_i h0; subst h0; simp [Flt.toRat]
    · split
      · rename_i h1
        simp only [Flt.toRat]
        rw [show 2 * (m / 2) + 1 = m by omega]
      · rename_i h0 h1
        rw [ih neg (m / 2) (e + 1) (by omega), zpow_add_one₀ (by norm_num)]
        have : (m : ℚ) = ((m / 2 : ℕ) : ℚ) * 2 := by
          exact_mod_cast (by omega : m = m / 2 * 2)
        rw [this]
        ring

theorem norm_toRat (neg : Bool) (m : Nat) (e : Int) : (norm neg m e).toRat = (if neg then -1 else 1) * (m : ℚ) * 2 ^ e :=
  normFuel_toRat m neg m e (Nat.le_refl _)

/-- Two consecutive multiples of the unit have no value of the format between them. -/
theorem grid (t : FltTy) (hi : Nat) (q : Int) (hq : t.emin ≤ q) (h : q = t.emin ∨ 2 ^ (t.digits - 1) ≤ hi) (g : Flt) (hg : g.Fits t) :
    g.toRat ≤ hi * 2 ^ q ∨ ((hi + 1 : ℕ) : ℚ) * 2 ^ q ≤ g.toRat := by
  have hp := pow_pos' q
  have h0 : (0 : ℚ) ≤ hi * 2 ^ q := mul_nonneg (Nat.cast_nonneg _) hp.le
  cases g with
  | nan => exact .inl h0
  | inf => exact .inl h0
  | zero => exact .inl h0
  | fin neg k e =>
    cases neg with
    | true =>
      left
      refine le_trans ?_ h0
      simp only [Flt.toRat, if_true]
      have : (0 : ℚ) ≤ ((2 * k + 1 : ℕ) : ℚ) * 2 ^ e := mul_nonneg (Nat.cast_nonneg _) (pow_pos' e).le
      linarith
    | false =>
      obtain ⟨h1, h2, -⟩ := hg
      simp only [Flt.toRat, Bool.false_eq_true, if_false, one_mul]
      by_cases he : q ≤ e
      · obtain ⟨d, rfl⟩ := Int.le.dest he
        have hv : ((2 * k + 1 : ℕ) : ℚ) * 2 ^ (q + d) = (((2 * k + 1) * 2 ^ d : ℕ) : ℚ) * 2 ^ q := by
          rw [zpow_add₀ (by norm_num), zpow_natCast]
          push_cast
          ring
        rw [hv]
        rcases Nat.lt_or_ge hi ((2 * k + 1) * 2 ^ d) with h | h
        · right; exact mul_le_mul_of_nonneg_right (by exact_mod_cast h) hp.le
        · left; exact mul_le_mul_of_nonneg_right (by exact_mod_cast h) hp.le
      · left
        have hd : 1 ≤ t.digits := by cases t <;> decide
        have hhi : 2 ^ (t.digits - 1) ≤ hi := by
          rcases h with h | h
          · omega
          · exact h
        have hm : ((2 * k + 1 : ℕ) : ℚ) ≤ ((2 * 2 ^ (t.digits - 1) : ℕ) : ℚ) := by
          have := bitLen_le_iff.1 h1
          have h2 : 2 ^ t.digits = 2 * 2 ^ (t.digits - 1) := by
            conv => lhs; rw [show t.digits = (t.digits - 1) + 1 by omega, Nat.pow_succ]
            omega
          exact_mod_cast (by omega : 2 * k + 1 ≤ 2 * 2 ^ (t.digits - 1))
        have hpe : (2 : ℚ) ^ e ≤ 2 ^ (q - 1) := zpow_le_zpow_right₀ (by norm_num) (by omega)
        have hq1 : (2 : ℚ) ^ q = 2 ^ (q - 1) * 2 := by
          rw [← zpow_add_one₀ (by norm_num)]
          congr 1
          omega
        have hhi' : ((2 ^ (t.digits - 1) : ℕ) : ℚ) ≤ (hi : ℚ) := by exact_mod_cast hhi
        calc ((2 * k + 1 : ℕ) : ℚ) * 2 ^ e ≤ ((2 * 2 ^ (t.digits - 1) : ℕ) : ℚ) * 2 ^ (q - 1) :=
              mul_le_mul hm hpe (pow_pos' e).le (Nat.cast_nonneg _)
          _ = ((2 ^ (t.digits - 1) : ℕ) : ℚ) * 2 ^ q := by rw [hq1]; push_cast; ring
          _ ≤ hi * 2 ^ q := mul_le_mul_of_nonneg_right hhi' hp.le

/-- What IEEE 754 asks of a conversion: no value of the format is nearer, and of two that are equally near it is the even multiple of the unit. -/
def Nearest (t : FltTy) (x : ℚ) (r : Flt) : Prop :=
  ∀ g : Flt, g.Fits t → g.isFinite = true → |r.toRat - x| ≤ |g.toRat - x| ∧
    (|r.toRat - x| = |g.toRat - x| → g.toRat ≠ r.toRat →
      ∃ (n q : ℤ), r.toRat = (2 * n : ℤ) * 2 ^ q ∧ (g.toRat = (2 * n + 1 : ℤ) * 2 ^ q ∨ g.toRat = (2 * n - 1 : ℤ) * 2 ^ q))

/-- The two neighbours, and which one is taken. -/
theorem nearest_of_neighbours (t : FltTy) (x : ℚ) (hi hi' : Nat) (q : Int) (hq : t.emin ≤ q) (h : q = t.emin ∨ 2 ^ (t.digits - 1) ≤ hi) (r : Flt)
    (hr : r.toRat = hi' * 2 ^ q) (h1 : (hi : ℚ) * 2 ^ q ≤ x) (h2 : x ≤ ((hi + 1 : ℕ) : ℚ) * 2 ^ q)
    (hc : (hi' = hi ∧ (x - hi * 2 ^ q < ((hi + 1 : ℕ) : ℚ) * 2 ^ q - x ∨ (x - hi * 2 ^ q = ((hi + 1 : ℕ) : ℚ) * 2 ^ q - x ∧ hi % 2 = 0))) ∨
      (hi' = hi + 1 ∧ (((hi + 1 : ℕ) : ℚ) * 2 ^ q - x < x - hi * 2 ^ q ∨ (((hi + 1 : ℕ) : ℚ) * 2 ^ q - x = x - hi * 2 ^ q ∧ hi % 2 = 1)))) :
    Nearest t x r := by
  intro g hg _
  have hgrid := grid t hi q hq h g hg
  rcases hc with ⟨rfl, hc⟩ | ⟨rfl, hc⟩
  · rw [hr]
    have ha : |(hi' : ℚ) * 2 ^ q - x| = x - hi' * 2 ^ q := by rw [abs_of_nonpos (by linarith)]; ring
    rw [ha]
    rcases hgrid with hgr | hgr
    · have hb : |g.toRat - x| = x - g.toRat := by rw [abs_of_nonpos (by linarith)]; ring
      rw [hb]
      exact ⟨by linarith, fun he hne => absurd (by linarith) hne⟩
    · have hb : |g.toRat - x| = g.toRat - x := abs_of_nonneg (by linarith)
      rw [hb]
      rcases hc with hc | ⟨hc, hev⟩
      · exact ⟨by linarith, fun he hne => by linarith⟩
      · refine ⟨by linarith, fun he _ => ⟨(hi' / 2 : ℕ), q, ?_, .inl ?_⟩⟩
        · have : (hi' : ℚ) = ((2 * ((hi' / 2 : ℕ) : ℤ) : ℤ) : ℚ) := by
            have h : (hi' : ℤ) = 2 * ((hi' / 2 : ℕ) : ℤ) := by omega
            rw [← h]; norm_cast
          rw [← this]
        · have : ((hi' + 1 : ℕ) : ℚ) = ((2 * ((hi' / 2 : ℕ) : ℤ) + 1 : ℤ) : ℚ) := by
            have h : ((hi' + 1 : ℕ) : ℤ) = 2 * ((hi' / 2 : ℕ) : ℤ) + 1 := by omega
            rw [← h]; norm_cast
          rw [← this]
          linarith
  · rw [hr]
    have ha : |((hi + 1 : ℕ) : ℚ) * 2 ^ q - x| = ((hi + 1 : ℕ) : ℚ) * 2 ^ q - x := abs_of_nonneg (by linarith)
    rw [ha]
    rcases hgrid with hgr | hgr
    · have hb : |g.toRat - x| = x - g.toRat := by rw [abs_of_nonpos (by linarith)]; ring
      rw [hb]
      rcases hc with hc | ⟨hc, hodd⟩
      · exact ⟨by linarith, fun he hne => by linarith⟩
      · refine ⟨by linarith, fun he _ => ⟨((hi + 1) / 2 : ℕ), q, ?_, .inr ?_⟩⟩
        · have : ((hi + 1 : ℕ) : ℚ) = ((2 * (((hi + 1) / 2 : ℕ) : ℤ) : ℤ) : ℚ) := by
            have h : ((hi + 1 : ℕ) : ℤ) = 2 * (((hi + 1) / 2 : ℕ) : ℤ) := by omega
            rw [← h]; norm_cast
          rw [← this]
        · have : (hi : ℚ) = ((2 * (((hi + 1) / 2 : ℕ) : ℤ) - 1 : ℤ) : ℚ) := by
            have h : (hi : ℤ) = 2 * (((hi + 1) / 2 : ℕ) : ℤ) - 1 := by omega
            rw [← h]; norm_cast
          rw [← this]
          linarith
    · have hb : |g.toRat - x| = g.toRat - x := abs_of_nonneg (by linarith)
      rw [hb]
      exact ⟨by linarith, fun he hne => absurd (by linarith) hne⟩

theorem nearest_self (t : FltTy) (r : Flt) : Nearest t r.toRat r := by
  intro g _ _
  simp only [sub_self, abs_zero]
  exact ⟨abs_nonneg _, fun h hne => absurd (sub_eq_zero.1 (abs_eq_zero.1 h.symm)) hne⟩

/-- The opposite value. -/
def Flt.opp : Flt → Flt
  | .nan => .nan
  | .inf b => .inf (!b)
  | .zero b => .zero (!b)
  | .fin b k e => .fin (!b) k e

theorem opp_toRat (f : Flt) : f.opp.toRat = -f.toRat := by
  cases f with
  | fin b k e => cases b <;> simp only [Flt.opp, Flt.toRat, Bool.not_true, Bool.not_false, Bool.false_eq_true, if_true, if_false] <;> ring
  | _ => simp [Flt.opp, Flt.toRat]

theorem opp_fits {t : FltTy} {f : Flt} (h : f.Fits t) : f.opp.Fits t := by cases f <;> exact h

theorem opp_finite (f : Flt) : f.opp.isFinite = f.isFinite := by cases f <;> rfl

theorem nearest_opp {t : FltTy} {x : ℚ} {r r' : Flt} (h : Nearest t x r) (hr : r'.toRat = -r.toRat) : Nearest t (-x) r' := by
  intro g hg hf
  obtain ⟨h1, h2⟩ := h g.opp (opp_fits hg) (by rw [opp_finite]; exact hf)
  have e1 : |r'.toRat - -x| = |r.toRat - x| := by rw [hr, ← abs_neg]; congr 1; ring
  have e2 : |g.toRat - -x| = |g.opp.toRat - x| := by rw [opp_toRat, ← abs_neg]; congr 1; ring
  rw [e1, e2]
  refine ⟨h1, fun he hne => ?_⟩
  obtain ⟨n, q, h3, h4⟩ := h2 he (by rw [opp_toRat]; intro h; apply hne; rw [hr, ← h]; ring)
  refine ⟨-n, q, by rw [hr, h3]; push_cast; ring, ?_⟩
  rw [opp_toRat] at h4
  rcases h4 with h4 | h4
  · right
    have : g.toRat = -(((2 * n + 1 : ℤ) : ℚ) * 2 ^ q) := by rw [← h4]; ring
    rw [this]; push_cast; ring
  · left
    have : g.toRat = -(((2 * n - 1 : ℤ) : ℚ) * 2 ^ q) := by rw [← h4]; ring
    rw [this]; push_cast; ring

theorem bitLen_div (m s : Nat) (h : s < bitLen m) : bitLen (m / 2 ^ s) = bitLen m - s := by
  have hm : m ≠ 0 := by rintro rfl; simp [bitLen] at h
  have hp := bitLen_pos hm
  have hl := lt_bitLen m
  have hps : 0 < 2 ^ s := Nat.pow_pos (by omega)
  apply Nat.le_antisymm
  · rw [bitLen_le_iff, Nat.div_lt_iff_lt_mul hps, ← Nat.pow_add, show bitLen m - s + s = bitLen m by omega]
    exact hl
  · have : ¬ bitLen (m / 2 ^ s) ≤ bitLen m - s - 1 := by
      rw [bitLen_le_iff, Nat.not_lt, Nat.le_div_iff_mul_le hps, ← Nat.pow_add, show bitLen m - s - 1 + s = bitLen m - 1 by omega]
      exact hp
    omega

/-- A finite conversion is the nearest value. -/
theorem round_nearest (t : FltTy) (f : Flt) (h : (f.round t).isFinite = true) : Nearest t f.toRat (f.round t) := by
  cases f with
  | nan => cases h
  | inf b => cases h
  | zero b => exact nearest_self t (.zero b)
  | fin neg k e =>
    have key : ∀ r, roundPos t false (2 * k + 1) e = r → r.isFinite = true → Nearest t (((2 * k + 1 : ℕ) : ℚ) * 2 ^ e) r := by
      intro r hr hf
      unfold roundPos at hr
      simp only at hr
      generalize hq' : max t.emin (e + ↑(bitLen (2 * k + 1)) - ↑t.digits) = q at *
      split at hr
      · split at hr
        · subst hr
          have := nearest_self t (norm false (2 * k + 1) e)
          rw [norm_toRat] at this
          simpa using this
        · subst hr; cases hf
      · rename_i hqe
        generalize hs : (q - e).toNat = s at *
        have hsp : 1 ≤ s := by omega
        have hqs : q = e + s := by omega
        generalize hi'' : (if 2 ^ (s - 1) < (2 * k + 1) % 2 ^ s ∨ (2 * k + 1) % 2 ^ s = 2 ^ (s - 1) ∧ (2 * k + 1) / 2 ^ s % 2 = 1
          then (2 * k + 1) / 2 ^ s + 1 else (2 * k + 1) / 2 ^ s) = hi' at *
        split at hr
        · subst hr
          have hpe := pow_pos' e
          have hps : 0 < 2 ^ s := Nat.pow_pos (by omega)
          have h2s : 2 ^ s = 2 * 2 ^ (s - 1) := by
            conv => lhs; rw [show s = (s - 1) + 1 by omega, Nat.pow_succ]
            omega
          have hscale : ∀ n : Nat, (n : ℚ) * 2 ^ q = ((n * 2 ^ s : ℕ) : ℚ) * 2 ^ e := by
            intro n
            rw [hqs, zpow_add₀ (by norm_num), zpow_natCast]
            push_cast
            ring
          have hdm := Nat.div_add_mod (2 * k + 1) (2 ^ s)
          have hml := Nat.mod_lt (2 * k + 1) hps
          rw [Nat.mul_comm] at hdm
          have hlead : q = t.emin ∨ 2 ^ (t.digits - 1) ≤ (2 * k + 1) / 2 ^ s := by
            by_cases hqm : q = t.emin
            · exact .inl hqm
            · right
              have hd : 1 ≤ t.digits := by cases t <;> decide
              have hqv : q = e + ↑(bitLen (2 * k + 1)) - ↑t.digits := by omega
              have hb : bitLen ((2 * k + 1) / 2 ^ s) = t.digits := by rw [bitLen_div _ _ (by omega)]; omega
              have hne : (2 * k + 1) / 2 ^ s ≠ 0 := by intro h0; rw [h0] at hb; simp [bitLen] at hb; omega
              have := bitLen_pos hne
              rw [hb] at this
              exact this
          generalize hhi : (2 * k + 1) / 2 ^ s = hi at *
          generalize hrem : (2 * k + 1) % 2 ^ s = rem at *
          have hs1 : (hi + 1) * 2 ^ s = hi * 2 ^ s + 2 ^ s := by rw [Nat.add_mul]; omega
          have hlow : ∀ a b : Nat, a ≤ b → (a : ℚ) * 2 ^ e ≤ (b : ℚ) * 2 ^ e := fun a b hab =>
            mul_le_mul_of_nonneg_right (by exact_mod_cast hab) hpe.le
          have hd1 : (((2 * k + 1 : ℕ) : ℚ) * 2 ^ e) - hi * 2 ^ q = (rem : ℚ) * 2 ^ e := by
            rw [hscale, ← hdm]; push_cast; ring
          have hd2 : ((hi + 1 : ℕ) : ℚ) * 2 ^ q - (((2 * k + 1 : ℕ) : ℚ) * 2 ^ e) = ((2 ^ s - rem : ℕ) : ℚ) * 2 ^ e := by
            rw [hscale, ← hdm, hs1, Nat.cast_sub hml.le]; push_cast; ring
          refine nearest_of_neighbours t _ hi hi' q (by omega) hlead _ (by rw [norm_toRat]; simp) ?_ ?_ ?_
          · rw [hscale]; exact hlow _ _ (by omega)
          · rw [hscale]; exact hlow _ _ (by omega)
          · rw [hd1, hd2]
            have hlt : ∀ a b : Nat, a < b → (a : ℚ) * 2 ^ e < (b : ℚ) * 2 ^ e := fun a b hab =>
              mul_lt_mul_of_pos_right (by exact_mod_cast hab) hpe
            split at hi''
            · rename_i hc
              right
              refine ⟨hi''.symm, ?_⟩
              rcases hc with hc | ⟨hc, hodd⟩
              · left; exact hlt _ _ (by omega)
              · right; exact ⟨by rw [show 2 ^ s - rem = rem by omega], hodd⟩
            · rename_i hc
              left
              refine ⟨hi''.symm, ?_⟩
              by_cases hr : rem < 2 ^ (s - 1)
              · left; exact hlt _ _ (by omega)
              · right
                have : rem = 2 ^ (s - 1) := by omega
                exact ⟨by rw [show 2 ^ s - rem = rem by omega], by omega⟩
        · subst hr; cases hf
    have hneg : ∀ m, (roundPos t true m e).toRat = -(roundPos t false m e).toRat ∧ (roundPos t true m e).isFinite = (roundPos t false m e).isFinite := by
      intro m
      unfold roundPos
      simp only
      repeat' split
      all_goals first
        | exact ⟨by rw [norm_toRat, norm_toRat]; simp only [Bool.false_eq_true, if_true, if_false]; ring, by rw [norm_ne, norm_ne]⟩
        | exact ⟨by simp [Flt.toRat], rfl⟩
    cases neg with
    | false =>
      have := key _ rfl h
      simpa [Flt.toRat, Flt.round] using this
    | true =>
      obtain ⟨h1, h2⟩ := hneg (2 * k + 1)
      have h' : (roundPos t false (2 * k + 1) e).isFinite = true := by rw [← h2]; exact h
      have := nearest_opp (key _ rfl h') h1
      have he : (Flt.fin true k e).toRat = -(((2 * k + 1 : ℕ) : ℚ) * 2 ^ e) := by
        simp only [Flt.toRat, if_true]
        ring
      rw [he]
      exact this

/-! ## Size -/

theorem dyadicLe_iff (m : Nat) (e : Int) (m' : Nat) (e' : Int) :
    dyadicLe m e m' e' = true ↔ (m : ℚ) * 2 ^ e ≤ (m' : ℚ) * 2 ^ e' := by
  simp only [dyadicLe, decide_eq_true_eq]
  by_cases h : e ≤ e'
  · obtain ⟨d, rfl⟩ := Int.le.dest h
    rw [show (e - (e + d)).toNat = 0 by omega, show (e + d - e).toNat = d by omega, zpow_add₀ (by norm_num), zpow_natCast,
      show (m' : ℚ) * (2 ^ e * 2 ^ d) = ((m' * 2 ^ d : ℕ) : ℚ) * 2 ^ e by push_cast; ring, mul_le_mul_iff_left₀ (pow_pos' e), Nat.cast_le]
    simp
  · obtain ⟨d, rfl⟩ := Int.le.dest (show e' ≤ e by omega)
    rw [show (e' - (e' + d)).toNat = 0 by omega, show (e' + d - e').toNat = d by omega, zpow_add₀ (by norm_num), zpow_natCast,
      show (m : ℚ) * (2 ^ e' * 2 ^ d) = ((m * 2 ^ d : ℕ) : ℚ) * 2 ^ e' by push_cast; ring, mul_le_mul_iff_left₀ (pow_pos' e'), Nat.cast_le]
    simp

/-- The greatest finite value of the format, `std::numeric_limits<T>::max()`. -/
def largest (t : FltTy) : ℚ := ((2 ^ t.digits - 1 : ℕ) : ℚ) * 2 ^ t.emax

/-- The number half-way between the greatest finite value and the next power of two. -/
def threshold (t : FltTy) : ℚ := ((2 ^ (t.digits + 1) - 1 : ℕ) : ℚ) * 2 ^ (t.emax - 1)

theorem abs_fin (neg : Bool) (k : Nat) (e : Int) : |(Flt.fin neg k e).toRat| = ((2 * k + 1 : ℕ) : ℚ) * 2 ^ e := by
  have h : (0 : ℚ) ≤ ((2 * k + 1 : ℕ) : ℚ) * 2 ^ e := mul_nonneg (Nat.cast_nonneg _) (pow_pos' e).le
  cases neg
  · simp only [Flt.toRat, Bool.false_eq_true, if_false, one_mul]
    exact abs_of_nonneg h
  · simp only [Flt.toRat, if_true, neg_mul, one_mul]
    rw [abs_neg]
    exact abs_of_nonneg h

theorem withinRange_iff (t : FltTy) (f : Flt) : withinRange t f = true ↔ f.isFinite = true ∧ |f.toRat| ≤ largest t := by
  cases f with
  | nan => simp [withinRange, Flt.isFinite]
  | inf => simp [withinRange, Flt.isFinite]
  | zero =>
    simp only [withinRange, Flt.isFinite, Flt.toRat, abs_zero, true_and, true_iff]
    exact mul_nonneg (Nat.cast_nonneg _) (pow_pos' _).le
  | fin neg k e =>
    rw [abs_fin]
    simp only [withinRange, Flt.isFinite, true_and]
    exact dyadicLe_iff _ _ _ _

theorem roundPos_finite_iff (t : FltTy) (neg : Bool) (m : Nat) (e : Int) (hm : m ≠ 0) :
    (roundPos t neg m e).isFinite = true ↔ ¬ threshold t ≤ (m : ℚ) * 2 ^ e := by
  have hd1 : 1 ≤ t.digits := by cases t <;> decide
  have hee : t.emin + 1 ≤ t.emax - 1 := by cases t <;> decide
  have hpos := bitLen_pos hm
  have hlt := lt_bitLen m
  have hLp : 1 ≤ bitLen m := by
    rcases Nat.eq_zero_or_pos (bitLen m) with h | h
    · rw [h] at hlt; simp at hlt; omega
    · exact h
  have h2d : 2 ^ (t.digits + 1) = 2 * 2 ^ t.digits := by rw [Nat.pow_succ]; omega
  have hdp : 1 ≤ 2 ^ t.digits := Nat.one_le_two_pow
  -- a number with a long significand is too large, with a short one it is not
  have big : t.digits + t.emax < bitLen m + e → threshold t ≤ (m : ℚ) * 2 ^ e := by
    intro h
    have h1 : ((2 ^ (bitLen m - 1) : ℕ) : ℚ) * 2 ^ e ≤ (m : ℚ) * 2 ^ e :=
      mul_le_mul_of_nonneg_right (by exact_mod_cast hpos) (pow_pos' e).le
    have h2 : threshold t ≤ ((2 ^ (t.digits + 1) : ℕ) : ℚ) * 2 ^ (t.emax - 1) :=
      mul_le_mul_of_nonneg_right (by exact_mod_cast Nat.sub_le _ _) (pow_pos' _).le
    refine le_trans h2 (le_trans ?_ h1)
    push_cast
    rw [← zpow_natCast, ← zpow_natCast, ← zpow_add₀ (by norm_num), ← zpow_add₀ (by norm_num)]
    exact zpow_le_zpow_right₀ (by norm_num) (by omega)
  have small : bitLen m + e ≤ t.digits + t.emax - 1 → ¬ threshold t ≤ (m : ℚ) * 2 ^ e := by
    intro h
    rw [not_le]
    have h1 : (m : ℚ) * 2 ^ e < ((2 ^ bitLen m : ℕ) : ℚ) * 2 ^ e :=
      mul_lt_mul_of_pos_right (by exact_mod_cast hlt) (pow_pos' e)
    have h2 : ((2 ^ t.digits : ℕ) : ℚ) * 2 ^ (t.emax - 1) ≤ threshold t :=
      mul_le_mul_of_nonneg_right (by exact_mod_cast (by omega : 2 ^ t.digits ≤ 2 ^ (t.digits + 1) - 1)) (pow_pos' _).le
    refine lt_of_lt_of_le h1 (le_trans ?_ h2)
    push_cast
    rw [← zpow_natCast, ← zpow_natCast, ← zpow_add₀ (by norm_num), ← zpow_add₀ (by norm_num)]
    exact zpow_le_zpow_right₀ (by norm_num) (by omega)
  unfold roundPos
  simp only
  generalize hq' : max t.emin (e + ↑(bitLen m) - ↑t.digits) = q
  split
  · split
    · rename_i h1 h2
      rw [norm_ne]
      refine ⟨fun _ => ?_, fun _ => rfl⟩
      by_cases h3 : bitLen m + e ≤ t.digits + t.emax - 1
      · exact small h3
      · -- as many bits as the greatest value, all of them in the format
        rw [threshold, ← dyadicLe_iff]
        simp only [dyadicLe, decide_eq_true_eq]
        have : t.emax ≤ e := by omega
        obtain ⟨d, hd⟩ := Int.le.dest this
        rw [show (t.emax - 1 - e).toNat = 0 by omega, show (e - (t.emax - 1)).toNat = d + 1 by omega]
        have hb : bitLen (m * 2 ^ d) ≤ t.digits := by rw [bitLen_mul_pow hm]; omega
        have := bitLen_le_iff.1 hb
        have h4 : m * 2 ^ (d + 1) = 2 * (m * 2 ^ d) := by rw [Nat.pow_succ]; ac_rfl
        omega
    · rename_i h1 h2
      simp only [Flt.isFinite, Bool.false_eq_true, false_iff, Decidable.not_not]
      exact big (by omega)
  · rename_i hqe
    generalize hs : (q - e).toNat = s
    have hsp : 1 ≤ s := by omega
    have hps : 0 < 2 ^ s := Nat.pow_pos (by omega)
    have h2s : 2 ^ s = 2 * 2 ^ (s - 1) := by
      conv => lhs; rw [show s = (s - 1) + 1 by omega, Nat.pow_succ]
      omega
    have hdm := Nat.div_add_mod m (2 ^ s)
    have hml := Nat.mod_lt m hps
    rw [Nat.mul_comm] at hdm
    have hhib : bitLen (m / 2 ^ s) ≤ t.digits := by
      by_cases h : s < bitLen m
      · rw [bitLen_div _ _ h]; omega
      · rw [Nat.div_eq_of_lt (Nat.lt_of_lt_of_le hlt (Nat.pow_le_pow_right (by omega) (by omega)))]
        simp [bitLen]
    have hhil := bitLen_le_iff.1 hhib
    have hpow1 : bitLen (2 ^ t.digits) = t.digits + 1 := by
      have := bitLen_mul_pow (m := 1) (by decide) t.digits
      rw [Nat.one_mul] at this
      rw [this]
      have : bitLen 1 = 1 := by decide
      omega
    generalize hi'' : (if 2 ^ (s - 1) < m % 2 ^ s ∨ m % 2 ^ s = 2 ^ (s - 1) ∧ m / 2 ^ s % 2 = 1
          then m / 2 ^ s + 1 else m / 2 ^ s) = hi'
    have hhi' : hi' = m / 2 ^ s ∨ hi' = m / 2 ^ s + 1 := by split at hi'' <;> omega
    have hfin : (if ↑(bitLen hi') + q ≤ ↑t.digits + t.emax then norm neg hi' q else Flt.inf neg).isFinite = true ↔
        ↑(bitLen hi') + q ≤ ↑t.digits + t.emax := by
      split
      · rename_i h; simp [norm_ne, h]
      · rename_i h; simp [Flt.isFinite, h]
    rw [hfin]
    have hbl : bitLen hi' ≤ t.digits + 1 := by
      rw [bitLen_le_iff]; omega
    by_cases hqx : q < t.emax
    · refine ⟨fun _ => small (by omega), fun _ => by omega⟩
    · have hqv : q = e + ↑(bitLen m) - ↑t.digits := by omega
      have hhb : bitLen (m / 2 ^ s) = t.digits := by rw [bitLen_div _ _ (by omega)]; omega
      have hmono : bitLen (m / 2 ^ s) ≤ bitLen hi' := bitLen_mono (by omega)
      by_cases hqy : q = t.emax
      · rw [threshold, ← dyadicLe_iff]
        simp only [dyadicLe, decide_eq_true_eq]
        rw [show (t.emax - 1 - e).toNat = s - 1 by omega, show (e - (t.emax - 1)).toNat = 0 by omega, Nat.pow_zero, Nat.mul_one, Nat.not_le]
        have hlast : bitLen hi' + q ≤ t.digits + t.emax ↔ hi' < 2 ^ t.digits := by
          rw [← bitLen_le_iff]; omega
        rw [hlast]
        have hexp : (2 ^ (t.digits + 1) - 1) * 2 ^ (s - 1) = (2 ^ t.digits - 1) * 2 ^ s + 2 ^ (s - 1) := by
          rw [h2s, h2d, show 2 * 2 ^ t.digits - 1 = (2 ^ t.digits - 1) * 2 + 1 by omega, Nat.add_mul, Nat.one_mul, Nat.mul_assoc]
        rw [hexp]
        have hodd : (2 ^ t.digits - 1) % 2 = 1 := by cases t <;> decide
        generalize hH : m / 2 ^ s = hi at *
        generalize hR : m % 2 ^ s = rem at *
        by_cases hmax : hi = 2 ^ t.digits - 1
        · rw [← hmax]
          rw [← hmax] at hodd
          split at hi'' <;> omega
        · have hle : hi + 1 ≤ 2 ^ t.digits - 1 := by omega
          have := Nat.mul_le_mul_right (2 ^ s) hle
          rw [Nat.add_mul, Nat.one_mul] at this
          exact ⟨fun _ => by omega, fun _ => by omega⟩
      · refine ⟨fun h => by omega, fun h => absurd (big (by omega)) h⟩

/-- The conversion of a finite number is infinite exactly from the half-way point beyond the greatest value on. -/
theorem round_finite_iff (t : FltTy) (f : Flt) (hf : f.isFinite = true) :
    (f.round t).isFinite = true ↔ ¬ threshold t ≤ |f.toRat| := by
  cases f with
  | nan => cases hf
  | inf => cases hf
  | zero =>
    simp only [Flt.round, Flt.isFinite, Flt.toRat, abs_zero, true_iff, not_le]
    refine mul_pos ?_ (pow_pos' _)
    have : 0 < 2 ^ (t.digits + 1) - 1 := by cases t <;> decide
    exact_mod_cast this
  | fin neg k e =>
    rw [abs_fin]
    exact roundPos_finite_iff t neg (2 * k + 1) e (by omega)

theorem largest_lt_threshold (t : FltTy) : largest t < threshold t := by
  rw [← not_le, largest, threshold, ← dyadicLe_iff]
  cases t <;> decide +kernel

/-! ## Values and numbers -/

/-- A number has one finite representation, but for the sign of zero. -/
theorem toRat_inj (f g : Flt) (hf : f.isFinite = true) (hg : g.isFinite = true) (h : f.toRat = g.toRat) :
    f = g ∨ (∃ b b', f = .zero b ∧ g = .zero b') := by
  have hnz : ∀ neg k e, (Flt.fin neg k e).toRat ≠ 0 := by
    intro neg k e h0
    have h1 := abs_fin neg k e
    rw [h0, abs_zero] at h1
    have : (0 : ℚ) < ((2 * k + 1 : ℕ) : ℚ) * 2 ^ e := mul_pos (by exact_mod_cast Nat.succ_pos _) (pow_pos' e)
    linarith
  cases f with
  | nan => cases hf
  | inf => cases hf
  | zero b =>
    cases g with
    | nan => cases hg
    | inf => cases hg
    | zero b' => exact .inr ⟨b, b', rfl, rfl⟩
    | fin neg k e => exact absurd h.symm (hnz _ _ _)
  | fin neg k e =>
    cases g with
    | nan => cases hg
    | inf => cases hg
    | zero b' => exact absurd h (hnz _ _ _)
    | fin neg' k' e' =>
      left
      have habs : ((2 * k + 1 : ℕ) : ℚ) * 2 ^ e = ((2 * k' + 1 : ℕ) : ℚ) * 2 ^ e' := by
        rw [← abs_fin neg k e, ← abs_fin neg' k' e', h]
      have h1 := (dyadicLe_iff _ _ _ _).2 habs.le
      have h2 := (dyadicLe_iff _ _ _ _).2 habs.ge
      simp only [dyadicLe, decide_eq_true_eq] at h1 h2
      have h3 := Nat.le_antisymm h1 h2
      have hee : e = e' := by
        rcases Int.lt_trichotomy e e' with hlt | heq | hgt
        · rw [show (e - e').toNat = 0 by omega, show (e' - e).toNat = ((e' - e).toNat - 1) + 1 by omega, Nat.pow_succ] at h3
          generalize 2 ^ ((e' - e).toNat - 1) = p at h3
          rw [← Nat.mul_assoc] at h3
          omega
        · exact heq
        · rw [show (e' - e).toNat = 0 by omega, show (e - e').toNat = ((e - e').toNat - 1) + 1 by omega, Nat.pow_succ] at h3
          generalize 2 ^ ((e - e').toNat - 1) = p at h3
          rw [← Nat.mul_assoc] at h3
          omega
      subst hee
      simp only [Int.sub_self, Int.toNat_zero, Nat.pow_zero, Nat.mul_one] at h3
      have hk : k = k' := by omega
      subst hk
      have hp : (0 : ℚ) < ((2 * k + 1 : ℕ) : ℚ) * 2 ^ e := mul_pos (by exact_mod_cast Nat.succ_pos _) (pow_pos' e)
      cases neg <;> cases neg' <;> simp only [Flt.toRat, Bool.false_eq_true, if_true, if_false] at h <;> first | rfl | (exfalso; linarith)

theorem toRat_ofInt (v : Int) : (Flt.ofInt v).toRat = v := by
  rw [Flt.ofInt, norm_toRat, zpow_zero, mul_one]
  by_cases h : v < 0
  · simp only [decide_eq_true h, if_true]
    have : ((v.natAbs : ℤ) : ℚ) = ((-v : ℤ) : ℚ) := by congr 1; omega
    rw [← Int.cast_natCast, this]
    push_cast
    ring
  · simp only [decide_eq_false h, Bool.false_eq_true, if_false, one_mul]
    have : ((v.natAbs : ℤ) : ℚ) = (v : ℚ) := by congr 1; omega
    rw [← Int.cast_natCast, this]

/-- A conversion keeps the number exactly when it is a value of the format. -/
theorem round_exact_iff (t : FltTy) (f : Flt) (hf : f.isFinite = true) :
    ((f.round t).isFinite = true ∧ (f.round t).toRat = f.toRat) ↔ f.Fits t := by
  constructor
  · rintro ⟨h1, h2⟩
    rcases toRat_inj _ _ h1 hf h2 with h | ⟨b, b', h, h'⟩
    · rw [← h]; exact round_fits_result t f
    · rw [h']; trivial
  · intro h
    rw [round_fits t f h]
    exact ⟨hf, rfl⟩

end Verif.Numeric
