import Verif.DateTime

/-! # Lemmas about the calendar and about date texts -/

namespace Verif.DateTime

/-- A date that exists in the proleptic Gregorian calendar. -/
def ValidDate (y : Int) (m d : Nat) : Prop := 1 ≤ m ∧ m ≤ 12 ∧ 1 ≤ d ∧ d ≤ monthLength y m

theorem daysBeforeYear_succ (y : Int) : daysBeforeYear (y + 1) = daysBeforeYear y + yearLength y := by
  unfold daysBeforeYear yearLength
  split
  · rename_i h
    simp only [leap, decide_eq_true_eq] at h
    omega
  · rename_i h
    simp only [leap, decide_eq_true_eq] at h
    omega

theorem daysBeforeYear_mono {y y' : Int} (h : y ≤ y') : daysBeforeYear y ≤ daysBeforeYear y' := by
  unfold daysBeforeYear; omega

theorem daysBeforeYear_period (k : Int) : daysBeforeYear (400 * k) = 146097 * k - 719528 := by
  unfold daysBeforeYear; omega

theorem daysBeforeMonth_succ (y : Int) (m : Nat) (h : 1 ≤ m) :
    daysBeforeMonth y (m + 1) = daysBeforeMonth y m + monthLength y m := by
  cases m with
  | zero => omega
  | succ m => rfl

theorem daysBeforeMonth_13 (y : Int) : daysBeforeMonth y 13 = yearLength y := by
  simp only [daysBeforeMonth, monthLength, yearLength]
  split <;> rfl

theorem daysBeforeMonth_mono (y : Int) {m m' : Nat} (h1 : 1 ≤ m) (h : m ≤ m') :
    daysBeforeMonth y m ≤ daysBeforeMonth y m' := by
  induction m' with
  | zero => omega
  | succ m' ih =>
    by_cases he : m = m' + 1
    · subst he; exact Nat.le_refl _
    · rw [daysBeforeMonth_succ y m' (by omega)]
      have := ih (by omega)
      omega

theorem dayNumber_bounds (y : Int) (m d : Nat) (h : ValidDate y m d) :
    daysBeforeYear y ≤ dayNumber y m d ∧ dayNumber y m d < daysBeforeYear (y + 1) := by
  obtain ⟨h1, h2, h3, h4⟩ := h
  rw [daysBeforeYear_succ]
  unfold dayNumber
  have hs := daysBeforeMonth_succ y m h1
  have hm := daysBeforeMonth_mono y (m := m + 1) (m' := 13) (by omega) (by omega)
  rw [daysBeforeMonth_13] at hm
  omega

/-- The order of dates is the order of their day numbers. -/
theorem dayNumber_lt (y y' : Int) (m d m' d' : Nat) (h : ValidDate y m d) (h' : ValidDate y' m' d')
    (hlt : y < y' ∨ (y = y' ∧ (m < m' ∨ (m = m' ∧ d < d')))) : dayNumber y m d < dayNumber y' m' d' := by
  have hb := dayNumber_bounds y m d h
  have hb' := dayNumber_bounds y' m' d' h'
  rcases hlt with hlt | ⟨rfl, hlt | ⟨rfl, hlt⟩⟩
  · have := daysBeforeYear_mono (y := y + 1) (y' := y') (by omega)
    omega
  · obtain ⟨h1, h2, h3, h4⟩ := h
    have hs := daysBeforeMonth_succ y m h1
    have hm := daysBeforeMonth_mono y (m := m + 1) (m' := m') (by omega) (by omega)
    obtain ⟨g1, g2, g3, g4⟩ := h'
    unfold dayNumber
    omega
  · unfold dayNumber; omega

theorem dayNumber_injective (y y' : Int) (m d m' d' : Nat) (h : ValidDate y m d) (h' : ValidDate y' m' d')
    (heq : dayNumber y m d = dayNumber y' m' d') : y = y' ∧ m = m' ∧ d = d' := by
  have h1 := fun hlt => dayNumber_lt y y' m d m' d' h h' hlt
  have h2 := fun hlt => dayNumber_lt y' y m' d' m d h' h hlt
  rcases Int.lt_trichotomy y y' with hy | hy | hy
  · have := h1 (Or.inl hy); omega
  · subst hy
    rcases Nat.lt_trichotomy m m' with hm | hm | hm
    · have := h1 (Or.inr ⟨rfl, Or.inl hm⟩); omega
    · subst hm
      rcases Nat.lt_trichotomy d d' with hd | hd | hd
      · have := h1 (Or.inr ⟨rfl, Or.inr ⟨rfl, hd⟩⟩); omega
      · exact ⟨rfl, rfl, hd⟩
      · have := h2 (Or.inr ⟨rfl, Or.inr ⟨rfl, hd⟩⟩); omega
    · have := h2 (Or.inr ⟨rfl, Or.inl hm⟩); omega
  · have := h2 (Or.inl hy); omega

theorem yearLoop_spec (fuel : Nat) (y : Int) (r : Nat) (h : (r : Int) < daysBeforeYear (y + fuel) - daysBeforeYear y) :
    daysBeforeYear (yearLoop fuel y r).1 + (yearLoop fuel y r).2 = daysBeforeYear y + r ∧
    (yearLoop fuel y r).2 < yearLength (yearLoop fuel y r).1 := by
  induction fuel generalizing y r with
  | zero => simp at h; omega
  | succ fuel ih =>
    simp only [yearLoop]
    split
    · exact ⟨rfl, by assumption⟩
    · rename_i hr
      have hs := daysBeforeYear_succ y
      have hcast : (y + 1 + (fuel : Int)) = y + ((fuel + 1 : Nat) : Int) := by omega
      obtain ⟨ih1, ih2⟩ := ih (y + 1) (r - yearLength y) (by rw [hcast]; omega)
      exact ⟨by rw [ih1]; omega, ih2⟩

theorem monthLoop_spec (y : Int) (fuel m r : Nat) (hm : 1 ≤ m) (hfuel : m + fuel = 13)
    (h : daysBeforeMonth y m + r < yearLength y) :
    let res := monthLoop y fuel m r
    daysBeforeMonth y res.1 + res.2 = daysBeforeMonth y m + r ∧ res.2 < monthLength y res.1 ∧
      1 ≤ res.1 ∧ res.1 ≤ 12 := by
  induction fuel generalizing m r with
  | zero =>
    have : m = 13 := by omega
    subst this
    rw [daysBeforeMonth_13] at h
    omega
  | succ fuel ih =>
    simp only [monthLoop]
    split
    · rename_i hr
      exact ⟨rfl, hr, hm, by omega⟩
    · rename_i hr
      have hs := daysBeforeMonth_succ y m hm
      obtain ⟨i1, i2, i3, i4⟩ := ih (m + 1) (r - monthLength y m) (by omega) (by omega) (by omega)
      exact ⟨by rw [i1]; omega, i2, i3, i4⟩

/-- Every day has a calendar date. -/
theorem civil_spec (days : Int) :
    ValidDate (civil days).1 (civil days).2.1 (civil days).2.2 ∧
    dayNumber (civil days).1 (civil days).2.1 (civil days).2.2 = days := by
  unfold civil
  simp only
  have hb := daysBeforeYear_period ((days + 719528) / 146097)
  have hb' : daysBeforeYear (400 * ((days + 719528) / 146097) + (400 : Nat)) =
      146097 * ((days + 719528) / 146097) + 146097 - 719528 := by
    have := daysBeforeYear_period ((days + 719528) / 146097 + 1)
    have h2 : 400 * ((days + 719528) / 146097) + (400 : Nat) = 400 * ((days + 719528) / 146097 + 1) := by omega
    rw [h2]
    omega
  obtain ⟨h1, h2⟩ := yearLoop_spec 400 (400 * ((days + 719528) / 146097)) ((days + 719528) % 146097).toNat
    (by rw [hb', hb]; omega)
  generalize yearLoop 400 (400 * ((days + 719528) / 146097)) ((days + 719528) % 146097).toNat = yr at *
  obtain ⟨y, r⟩ := yr
  simp only at h1 h2 ⊢
  have h0 : daysBeforeMonth y 1 = 0 := rfl
  obtain ⟨m1, m2, m3, m4⟩ := monthLoop_spec y 12 1 r (by omega) (by omega) (by omega)
  generalize monthLoop y 12 1 r = mr at *
  obtain ⟨m, d⟩ := mr
  simp only at m1 m2 m3 m4 ⊢
  refine ⟨⟨m3, m4, by omega, by omega⟩, ?_⟩
  unfold dayNumber
  omega

theorem civil_dayNumber (y : Int) (m d : Nat) (h : ValidDate y m d) : civil (dayNumber y m d) = (y, m, d) := by
  obtain ⟨h1, h2⟩ := civil_spec (dayNumber y m d)
  obtain ⟨e1, e2, e3⟩ := dayNumber_injective _ _ _ _ _ _ h1 h h2
  ext <;> simp [e1, e2, e3]

/-- A moment of the calendar. -/
def ValidTm (tm : Tm) : Prop :=
  ValidDate tm.year tm.month tm.day ∧ tm.hour < 24 ∧ tm.minute < 60 ∧ tm.second < 60

theorem gmtime_valid (t : Int) : ValidTm (gmtime t) := by
  refine ⟨(civil_spec (t / 86400)).1, ?_, ?_, ?_⟩ <;> simp only [gmtime] <;> omega

theorem timegm_gmtime (t : Int) : timegm (gmtime t) = t := by
  have h := (civil_spec (t / 86400)).2
  simp only [timegm, gmtime]
  rw [h]
  omega

theorem gmtime_timegm (tm : Tm) (h : ValidTm tm) : gmtime (timegm tm) = tm := by
  obtain ⟨hd, h1, h2, h3⟩ := h
  obtain ⟨y, m, d, hh, mi, s⟩ := tm
  simp only at hd h1 h2 h3
  have e1 : timegm ⟨y, m, d, hh, mi, s⟩ / 86400 = dayNumber y m d := by simp only [timegm]; omega
  have e2 : (timegm ⟨y, m, d, hh, mi, s⟩ % 86400).toNat = hh * 3600 + mi * 60 + s := by simp only [timegm]; omega
  simp only [gmtime, e1, e2, civil_dayNumber y m d hd]
  congr 1 <;> omega

theorem timegm_lt (a b : Tm) (ha : ValidTm a) (hb : ValidTm b)
    (h : a.year < b.year ∨ (a.year = b.year ∧ (a.month < b.month ∨ (a.month = b.month ∧ (a.day < b.day ∨
      (a.day = b.day ∧ (a.hour < b.hour ∨ (a.hour = b.hour ∧ (a.minute < b.minute ∨
        (a.minute = b.minute ∧ a.second < b.second)))))))))) : timegm a < timegm b := by
  obtain ⟨ad, a1, a2, a3⟩ := ha
  obtain ⟨bd, b1, b2, b3⟩ := hb
  have key := dayNumber_lt _ _ _ _ _ _ ad bd
  simp only [timegm]
  rcases h with h | ⟨hy, h | ⟨hm, h | ⟨hd, h⟩⟩⟩
  · have := key (Or.inl h); omega
  · have := key (Or.inr ⟨hy, Or.inl h⟩); omega
  · have := key (Or.inr ⟨hy, Or.inr ⟨hm, h⟩⟩); omega
  · rw [hy, hm, hd]; omega

/-! ## Validity -/

theorem isLeapYear_eq (y : Nat) : isLeapYear y = leap y := by
  unfold isLeapYear leap
  rw [Bool.eq_iff_iff]
  simp only [Bool.or_eq_true, Bool.and_eq_true, decide_eq_true_eq]
  omega

theorem isValidDate_iff (y m d : Nat) : isValidDate y m d = true ↔ ValidDate y m d := by
  unfold isValidDate ValidDate
  rw [isLeapYear_eq]
  by_cases hd : d < 1
  · simp only [hd, if_true]
    constructor
    · intro h; cases h
    · intro h; omega
  · simp only [hd, if_false]
    by_cases hm : m ≤ 12
    · have : m = 0 ∨ m = 1 ∨ m = 2 ∨ m = 3 ∨ m = 4 ∨ m = 5 ∨ m = 6 ∨ m = 7 ∨ m = 8 ∨ m = 9 ∨ m = 10 ∨ m = 11 ∨ m = 12 := by
        omega
      rcases this with rfl | rfl | rfl | rfl | rfl | rfl | rfl | rfl | rfl | rfl | rfl | rfl | rfl <;>
        cases hl : leap y <;> simp [monthLength, hl] <;> omega
    · constructor
      · intro h
        split at h <;> first | omega | cases h
      · intro h; omega

/-! ## Fields -/

/-- Two digits. -/
def two (n : Nat) : Str := [digitChar (n / 10), digitChar n]

/-- Four digits. -/
def four (n : Nat) : Str := [digitChar (n / 1000), digitChar (n / 100), digitChar (n / 10), digitChar n]

theorem toChars_fit (junk : Nat → Str) (room n : Nat) (h : (decimal n).length = room) :
    toChars junk room (n : Int) = decimal n := by
  have : decimalInt (n : Int) = decimal n := by
    simp [decimalInt, show ¬ ((n : Int) < 0) by omega]
  simp [toChars, this, h]

theorem digitChar_zero : digitChar 0 = 48 := rfl

theorem field2_eq (junk : Nat → Str) (n : Nat) (h : n < 100) : field2 junk (n : Int) = two n := by
  unfold field2 two
  by_cases h1 : n < 10
  · rw [if_pos (by omega), toChars_fit _ _ _ (by rw [decimal_lt n h1]; rfl), decimal_lt n h1]
    rw [show n / 10 = 0 by omega]; rfl
  · rw [if_neg (by omega), toChars_fit _ _ _ (by rw [decimal_two n (by omega) h]; rfl), decimal_two n (by omega) h]

theorem field4_eq (junk : Nat → Str) (n : Nat) (h : n < 10000) : field4 junk (n : Int) = four n := by
  unfold field4 four
  by_cases h1 : n < 10
  · rw [if_pos (by omega), toChars_fit _ _ _ (by rw [decimal_lt n h1]; rfl), decimal_lt n h1]
    rw [show n / 10 = 0 by omega, show n / 100 = 0 by omega, show n / 1000 = 0 by omega]; rfl
  · rw [if_neg (by omega)]
    by_cases h2 : n < 100
    · rw [if_pos (by omega), toChars_fit _ _ _ (by rw [decimal_two n (by omega) h2]; rfl), decimal_two n (by omega) h2]
      rw [show n / 100 = 0 by omega, show n / 1000 = 0 by omega]; rfl
    · rw [if_neg (by omega)]
      by_cases h3 : n < 1000
      · rw [if_pos (by omega), toChars_fit _ _ _ (by rw [decimal_three n (by omega) h3]; rfl),
          decimal_three n (by omega) h3]
        rw [show n / 1000 = 0 by omega]; rfl
      · rw [if_neg (by omega), toChars_fit _ _ _ (by rw [decimal_four n (by omega) h]; rfl),
          decimal_four n (by omega) h]

theorem digitChar_val (n : Nat) : (digitChar n).toNat - 48 = n % 10 := by
  have : digitChar n = digitChar (n % 10) := by simp [digitChar]
  rw [this, digitChar_toNat _ (by omega)]
  omega

theorem fromDigits_two (n : Nat) (h : n < 100) : fromDigits (two n) = some n := by
  have hv : digitsValue (two n) = n := by
    simp only [digitsValue, two, List.foldl, digitChar_val]
    omega
  unfold fromDigits
  rw [hv, if_pos]
  refine ⟨by simp [two], ?_, by omega⟩
  simp [two, isDigit_digitChar]

theorem fromDigits_four (n : Nat) (h : n < 10000) : fromDigits (four n) = some n := by
  have hv : digitsValue (four n) = n := by
    simp only [digitsValue, four, List.foldl, digitChar_val]
    omega
  unfold fromDigits
  rw [hv, if_pos]
  refine ⟨by simp [four], ?_, by omega⟩
  simp [four, isDigit_digitChar]

/-- A digit character is determined by its value. -/
theorem eq_digitChar (c : UInt8) (h : isDigit c = true) : c = digitChar (c.toNat - 48) := by
  simp only [isDigit, Bool.and_eq_true, decide_eq_true_eq] at h
  apply UInt8.toNat.inj
  rw [digitChar_toNat _ (by omega)]
  omega

theorem digitChar_congr {a b : Nat} (h : a % 10 = b % 10) : digitChar a = digitChar b := by
  unfold digitChar; rw [h]

/-- Two characters that read as a number are its two digits. -/
theorem fromDigits_two_inv (a b : UInt8) (n : Nat) (h : fromDigits [a, b] = some n) : [a, b] = two n ∧ n < 100 := by
  unfold fromDigits at h
  split at h
  · rename_i hc
    obtain ⟨-, hd, -⟩ := hc
    simp only [Option.some.injEq] at h
    simp only [List.all_cons, List.all_nil, Bool.and_true, Bool.and_eq_true] at hd
    obtain ⟨ha, hb⟩ := hd
    have ea := eq_digitChar a ha
    have eb := eq_digitChar b hb
    simp only [isDigit, Bool.and_eq_true, decide_eq_true_eq] at ha hb
    simp only [digitsValue, List.foldl] at h
    refine ⟨?_, by omega⟩
    unfold two
    rw [ea, eb]
    congr 1
    · exact digitChar_congr (by omega)
    · congr 1; exact digitChar_congr (by omega)
  · cases h

theorem fromDigits_four_inv (a b c d : UInt8) (n : Nat) (h : fromDigits [a, b, c, d] = some n) :
    [a, b, c, d] = four n ∧ n < 10000 := by
  unfold fromDigits at h
  split at h
  · rename_i hc
    obtain ⟨-, hd, -⟩ := hc
    simp only [Option.some.injEq] at h
    simp only [List.all_cons, List.all_nil, Bool.and_true, Bool.and_eq_true] at hd
    obtain ⟨ha, hb, hc, hd⟩ := hd
    have ea := eq_digitChar a ha
    have eb := eq_digitChar b hb
    have ec := eq_digitChar c hc
    have ed := eq_digitChar d hd
    simp only [isDigit, Bool.and_eq_true, decide_eq_true_eq] at ha hb hc hd
    simp only [digitsValue, List.foldl] at h
    refine ⟨?_, by omega⟩
    unfold four
    rw [ea, eb, ec, ed]
    congr 1
    · exact digitChar_congr (by omega)
    congr 1
    · exact digitChar_congr (by omega)
    congr 1
    · exact digitChar_congr (by omega)
    congr 1; exact digitChar_congr (by omega)
  · cases h

end Verif.DateTime
