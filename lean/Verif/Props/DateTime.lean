import Verif.DateTimeLemmas

/-!
# Properties C06 to C12: timestamps and calendar dates

Specification: the text `YYYY-MM-DDxHH:MM:SSZ` of six numbers (`isoText`), the calendar
(`ValidTm`: existing Gregorian day, hour < 24, minute < 60, second < 60) and the number of seconds after the
epoch (`timegm`, i.e. `86400 * dayNumber + …`). `dayNumber` is pinned down by `C07_calendar_counts_days`:
it is 0 for 1970-01-01 and increases by one from each day to the next one.
-/

namespace Verif.Props
open Verif.DateTime

/-- The text `YYYY-MM-DDxHH:MM:SSZ`. -/
def isoText (sep : UInt8) (y m d h mi s : Nat) : Str :=
  four y ++ [45] ++ two m ++ [45] ++ two d ++ [sep] ++ two h ++ [58] ++ two mi ++ [58] ++ two s ++ [90]

example : isoText 84 1982 10 23 1 20 40 = lit "1982-10-23T01:20:40Z" := by decide +kernel

/-- The text `YYYY-MM-DD`. -/
def isoDateText (y m d : Nat) : Str := four y ++ [45] ++ two m ++ [45] ++ two d

example : isoDateText 7 1 2 = lit "0007-01-02" := by decide +kernel

/-- First second of year 0. -/
def minSecond : Int := -62167219200
/-- First second of year 10000. -/
def endSecond : Int := 253402300800

example : timegm ⟨0, 1, 1, 0, 0, 0⟩ = minSecond ∧ timegm ⟨10000, 1, 1, 0, 0, 0⟩ = endSecond := by decide +kernel

/-! ## The calendar -/

/-- The calendar day after a given one. -/
def nextDay (y : Int) (m d : Nat) : Int × Nat × Nat :=
  if d < monthLength y m then (y, m, d + 1) else if m < 12 then (y, m + 1, 1) else (y + 1, 1, 1)

/-- **C07.** `dayNumber` counts the calendar days from 1970-01-01. -/
theorem C07_calendar_counts_days :
    dayNumber 1970 1 1 = 0 ∧
    ∀ y m d, ValidDate y m d → ValidDate (nextDay y m d).1 (nextDay y m d).2.1 (nextDay y m d).2.2 ∧
      dayNumber (nextDay y m d).1 (nextDay y m d).2.1 (nextDay y m d).2.2 = dayNumber y m d + 1 := by
  refine ⟨by decide, ?_⟩
  intro y m d h
  have hpos : ∀ (y : Int) (m : Nat), 1 ≤ m → m ≤ 12 → 1 ≤ monthLength y m := by
    intro y m h1 h2
    have : m = 1 ∨ m = 2 ∨ m = 3 ∨ m = 4 ∨ m = 5 ∨ m = 6 ∨ m = 7 ∨ m = 8 ∨ m = 9 ∨ m = 10 ∨ m = 11 ∨ m = 12 := by
      omega
    rcases this with rfl | rfl | rfl | rfl | rfl | rfl | rfl | rfl | rfl | rfl | rfl | rfl <;>
      simp [monthLength]
    split <;> omega
  obtain ⟨h1, h2, h3, h4⟩ := h
  unfold nextDay
  split
  · exact ⟨⟨h1, h2, by simp, by simp; omega⟩, by simp only [dayNumber]; omega⟩
  · split
    · have hp := hpos y (m + 1) (by omega) (by omega)
      have hs := daysBeforeMonth_succ y m h1
      exact ⟨⟨by simp, by simp; omega, by simp, hp⟩, by simp only [dayNumber]; omega⟩
    · have hm : m = 12 := by omega
      subst hm
      have h13 := daysBeforeMonth_13 y
      have hs : daysBeforeMonth y 13 = _ := daysBeforeMonth_succ y 12 h1
      have hy := daysBeforeYear_succ y
      have h0 : daysBeforeMonth (y + 1) 1 = 0 := rfl
      exact ⟨⟨by simp, by simp, by simp, hpos _ _ (by simp) (by simp)⟩, by simp only [dayNumber]; omega⟩

example : nextDay 2000 2 28 = (2000, 2, 29) ∧ nextDay 1900 2 28 = (1900, 3, 1) ∧ nextDay 1999 12 31 = (2000, 1, 1) := by
  decide

/-! ## Parsing -/

theorem length_isoText (sep : UInt8) (y m d h mi s : Nat) : (isoText sep y m d h mi s).length = 20 := by
  simp [isoText, four, two]

theorem fromTimeT_parsed (clk : Nat) (t : Int) :
    Parsed.of (fromTimeT clk t) = if InRep (t * clk) then .ok (t * clk) else .overflow := by
  unfold fromTimeT
  split <;> rfl

/-- The text of a calendar moment parses to the ticks of that moment. -/
theorem parse_isoText (clk : Nat) (sep : UInt8) (hsep : sep = 84 ∨ sep = 32) (y m d h mi s : Nat) (hy : y < 10000)
    (hv : ValidTm ⟨y, m, d, h, mi, s⟩) :
    parseDatetime clk (isoText sep y m d h mi s) =
      if InRep (timegm ⟨y, m, d, h, mi, s⟩ * clk) then .ok (timegm ⟨y, m, d, h, mi, s⟩ * clk) else .overflow := by
  obtain ⟨hd, h1, h2, h3⟩ := hv
  simp only at hd h1 h2 h3
  have hd' := hd
  obtain ⟨d1, d2, d3, d4⟩ := hd
  have hd31 : d ≤ 31 := by
    have : monthLength y m ≤ 31 := by unfold monthLength; split <;> first | omega | (split <;> omega)
    omega
  unfold parseDatetime
  rw [if_neg (by simp [length_isoText])]
  have e1 : sub (isoText sep y m d h mi s) 0 4 = four y := rfl
  have e2 : sub (isoText sep y m d h mi s) 5 7 = two m := rfl
  have e3 : sub (isoText sep y m d h mi s) 8 10 = two d := rfl
  have e4 : sub (isoText sep y m d h mi s) 11 13 = two h := rfl
  have e5 : sub (isoText sep y m d h mi s) 14 16 = two mi := rfl
  have e6 : sub (isoText sep y m d h mi s) 17 19 = two s := rfl
  have a1 : at? (isoText sep y m d h mi s) 4 = some 45 := rfl
  have a2 : at? (isoText sep y m d h mi s) 7 = some 45 := rfl
  have a3 : at? (isoText sep y m d h mi s) 10 = some sep := rfl
  have a4 : at? (isoText sep y m d h mi s) 13 = some 58 := rfl
  have a5 : at? (isoText sep y m d h mi s) 16 = some 58 := rfl
  have a6 : at? (isoText sep y m d h mi s) 19 = some 90 := rfl
  rw [a1, a2, a3, a4, a5, a6, if_neg (by rcases hsep with rfl | rfl <;> decide)]
  rw [e1, e2, e3, e4, e5, e6, fromDigits_four y hy, fromDigits_two m (by omega), fromDigits_two d (by omega),
    fromDigits_two h (by omega), fromDigits_two mi (by omega), fromDigits_two s (by omega)]
  have hval := (isValidDate_iff y m d).2 hd'
  simp only [hval, Bool.not_true, Bool.false_eq_true, if_false]
  rw [if_neg (by omega)]
  exact fromTimeT_parsed clk _

theorem list20 (l : Str) (h : l.length = 20) : ∃ a0 a1 a2 a3 a4 a5 a6 a7 a8 a9 b0 b1 b2 b3 b4 b5 b6 b7 b8 b9,
    l = [a0, a1, a2, a3, a4, a5, a6, a7, a8, a9, b0, b1, b2, b3, b4, b5, b6, b7, b8, b9] := by
  match l, h with
  | [a0, a1, a2, a3, a4, a5, a6, a7, a8, a9, b0, b1, b2, b3, b4, b5, b6, b7, b8, b9], _ =>
    exact ⟨a0, a1, a2, a3, a4, a5, a6, a7, a8, a9, b0, b1, b2, b3, b4, b5, b6, b7, b8, b9, rfl⟩

theorem list10 (l : Str) (h : l.length = 10) : ∃ a0 a1 a2 a3 a4 a5 a6 a7 a8 a9,
    l = [a0, a1, a2, a3, a4, a5, a6, a7, a8, a9] := by
  match l, h with
  | [a0, a1, a2, a3, a4, a5, a6, a7, a8, a9], _ => exact ⟨a0, a1, a2, a3, a4, a5, a6, a7, a8, a9, rfl⟩

/-- **C07.** A text is accepted iff it is the text of an existing moment of the calendar (with `T` or a blank
between date and time), and then the result is that moment in clock ticks — provided that the tick count is
representable (see C10). -/
theorem C07_parse_accepts_exactly (clk : Nat) (text : Str) :
    (parseDatetime clk text ≠ .rejected ↔
      ∃ (sep : UInt8) (y m d h mi s : Nat), (sep = 84 ∨ sep = 32) ∧ y < 10000 ∧ ValidTm ⟨y, m, d, h, mi, s⟩ ∧
        text = isoText sep y m d h mi s) ∧
    (∀ (sep : UInt8) (y m d h mi s : Nat), (sep = 84 ∨ sep = 32) → y < 10000 → ValidTm ⟨(y : Int), m, d, h, mi, s⟩ →
      parseDatetime clk (isoText sep y m d h mi s) =
        if InRep (timegm ⟨y, m, d, h, mi, s⟩ * clk) then .ok (timegm ⟨y, m, d, h, mi, s⟩ * clk) else .overflow) := by
  refine ⟨⟨?_, ?_⟩, fun sep y m d h mi s hsep hy hv => parse_isoText clk sep hsep y m d h mi s hy hv⟩
  · intro hne
    unfold parseDatetime at hne
    split at hne
    · exact absurd rfl hne
    · rename_i hlen
      obtain ⟨a0, a1, a2, a3, a4, a5, a6, a7, a8, a9, b0, b1, b2, b3, b4, b5, b6, b7, b8, b9, rfl⟩ :=
        list20 text (Decidable.byContradiction hlen)
      split at hne
      · exact absurd rfl hne
      · rename_i hsepc
        simp only [at?, List.getElem?_cons_zero, List.getElem?_cons_succ, not_or, ne_eq, Option.some.injEq,
          Decidable.not_not, not_and] at hsepc
        obtain ⟨s4, s7, s10, s13, s16, s19⟩ := hsepc
        have hsep : b0 = 84 ∨ b0 = 32 := by
          by_cases hc : b0 = 84
          · exact Or.inl hc
          · exact Or.inr (s10 hc)
        simp only [sub, List.drop, List.take, Nat.reduceSub] at hne
        split at hne
        · rename_i year month day hour minute second hyear hmonth hday hhour hminute hsecond
          split at hne
          · exact absurd rfl hne
          · rename_i hvalid
            split at hne
            · exact absurd rfl hne
            · rename_i htime
              simp only [Bool.not_eq_true', Bool.not_eq_false] at hvalid
              have hvd := (isValidDate_iff year month day).1 hvalid
              obtain ⟨ty, hy⟩ := fromDigits_four_inv _ _ _ _ _ hyear
              obtain ⟨tm, _⟩ := fromDigits_two_inv _ _ _ hmonth
              obtain ⟨td, _⟩ := fromDigits_two_inv _ _ _ hday
              obtain ⟨th, _⟩ := fromDigits_two_inv _ _ _ hhour
              obtain ⟨tmi, _⟩ := fromDigits_two_inv _ _ _ hminute
              obtain ⟨ts, _⟩ := fromDigits_two_inv _ _ _ hsecond
              refine ⟨b0, year, month, day, hour, minute, second, hsep, hy, ⟨hvd, by simp; omega, by simp; omega, by simp; omega⟩, ?_⟩
              unfold isoText
              rw [← ty, ← tm, ← td, ← th, ← tmi, ← ts, s4, s7, s13, s16, s19]
              rfl
        · exact absurd rfl hne
  · rintro ⟨sep, y, m, d, h, mi, s, hsep, hy, hv, rfl⟩
    rw [parse_isoText clk sep hsep y m d h mi s hy hv]
    split <;> simp

example : ValidTm ⟨((2024 : Nat) : Int), 2, 29, 23, 59, 59⟩ := by
  refine ⟨⟨by decide, by decide, by decide, by decide⟩, by decide, by decide, by decide⟩
example : parseDatetime 1000000 (lit "2024-02-29 23:59:59Z") = .ok 1709251199000000 := by decide +kernel
example : parseDatetime 1000000 (lit "2023-02-29 23:59:59Z") = .rejected := by decide +kernel
example : parseDatetime 1000000 (lit "2024-02-29T23:59:60Z") = .rejected := by decide +kernel

/-! ## Formatting -/

theorem seconds_year (t : Int) : (minSecond ≤ t ∧ t < endSecond) ↔ (0 ≤ (gmtime t).year ∧ (gmtime t).year < 10000) := by
  have hv := (gmtime_valid t).1
  have hb := dayNumber_bounds _ _ _ hv
  have hd : dayNumber (gmtime t).year (gmtime t).month (gmtime t).day = t / 86400 := (civil_spec (t / 86400)).2
  rw [hd] at hb
  generalize (gmtime t).year = y at *
  have m0 : daysBeforeYear 0 = -719528 := by decide
  have m1 : daysBeforeYear 10000 = 2932897 := by decide
  unfold minSecond endSecond
  constructor
  · rintro ⟨h1, h2⟩
    constructor
    · apply Decidable.byContradiction
      intro hc
      have := daysBeforeYear_mono (y := y + 1) (y' := 0) (by omega)
      omega
    · apply Decidable.byContradiction
      intro hc
      have := daysBeforeYear_mono (y := 10000) (y' := y) (by omega)
      omega
  · rintro ⟨h1, h2⟩
    have g1 := daysBeforeYear_mono (y := 0) (y' := y) h1
    have g2 := daysBeforeYear_mono (y := y + 1) (y' := 10000) (by omega)
    omega

theorem tm_fields (tm : Tm) (h : ValidTm tm) : tm.month < 100 ∧ tm.day < 100 ∧ tm.hour < 100 ∧ tm.minute < 100 ∧ tm.second < 100 := by
  obtain ⟨⟨_, h2, _, h4⟩, h5, h6, h7⟩ := h
  have : monthLength tm.year tm.month ≤ 31 := by
    unfold monthLength; split <;> first | omega | (split <;> omega)
  omega

/-- In years 0 to 9999 the formatted text is the text of the broken-down time. -/
theorem format_eq (junk : Nat → Str) (clk : Nat) (ticks : Int)
    (h : minSecond ≤ toTimeT clk ticks ∧ toTimeT clk ticks < endSecond) :
    let tm := gmtime (toTimeT clk ticks)
    toIsoDatetime junk clk ticks = isoText 84 tm.year.toNat tm.month tm.day tm.hour tm.minute tm.second := by
  have hy := (seconds_year _).1 h
  have hv := gmtime_valid (toTimeT clk ticks)
  simp only [toIsoDatetime]
  generalize gmtime (toTimeT clk ticks) = tm at *
  obtain ⟨f1, f2, f3, f4, f5⟩ := tm_fields tm hv
  have he : tm.year = (tm.year.toNat : Int) := by omega
  rw [field2_eq junk _ f1, field2_eq junk _ f2, field2_eq junk _ f3, field2_eq junk _ f4, field2_eq junk _ f5]
  rw [he, field4_eq junk _ (by omega)]
  rfl

theorem parse_format (junk : Nat → Str) (clk : Nat) (ticks : Int)
    (h : minSecond ≤ toTimeT clk ticks ∧ toTimeT clk ticks < endSecond) (hrep : InRep (toTimeT clk ticks * clk)) :
    parseDatetime clk (toIsoDatetime junk clk ticks) = .ok (toTimeT clk ticks * clk) := by
  have hy := (seconds_year _).1 h
  have hv := gmtime_valid (toTimeT clk ticks)
  rw [format_eq junk clk ticks h]
  have hg := timegm_gmtime (toTimeT clk ticks)
  have he : (⟨((gmtime (toTimeT clk ticks)).year.toNat : Int), (gmtime (toTimeT clk ticks)).month,
      (gmtime (toTimeT clk ticks)).day, (gmtime (toTimeT clk ticks)).hour, (gmtime (toTimeT clk ticks)).minute,
      (gmtime (toTimeT clk ticks)).second⟩ : Tm) = gmtime (toTimeT clk ticks) := by
    have : ((gmtime (toTimeT clk ticks)).year.toNat : Int) = (gmtime (toTimeT clk ticks)).year := by omega
    rw [this]
  rw [parse_isoText clk 84 (Or.inl rfl) _ _ _ _ _ _ (by omega) (by rw [he]; exact hv), he, hg, if_pos hrep]

theorem toTimeT_mul (clk : Nat) (hclk : 0 < clk) (t : Int) : toTimeT clk (t * clk) = t := by
  unfold toTimeT
  exact Int.mul_tdiv_cancel _ (by omega)

theorem tmod_nonpos (clk : Nat) (ticks : Int) (h : ticks ≤ 0) : ticks.tmod clk ≤ 0 := by
  have := Int.tmod_nonneg (a := -ticks) (clk : Int) (by omega)
  rw [Int.neg_tmod] at this
  omega

theorem tdiv_mul_inRep (clk : Nat) (ticks : Int) (h : InRep ticks) : InRep (toTimeT clk ticks * clk) := by
  unfold InRep toTimeT at *
  have h1 := Int.mul_tdiv_add_tmod ticks clk
  rw [Int.mul_comm] at h1
  have h2 : 0 ≤ ticks → 0 ≤ ticks.tmod clk := fun hh => Int.tmod_nonneg clk hh
  have h3 : ticks ≤ 0 → ticks.tmod clk ≤ 0 := fun hh => tmod_nonpos clk ticks hh
  have h4 : 0 ≤ ticks → 0 ≤ ticks.tdiv clk * clk :=
    fun hh => Int.mul_nonneg (Int.tdiv_nonneg hh (by omega)) (by omega)
  have h5 : ticks ≤ 0 → ticks.tdiv clk * clk ≤ 0 := by
    intro hh
    have : 0 ≤ (-ticks).tdiv clk * clk := Int.mul_nonneg (Int.tdiv_nonneg (by omega) (by omega)) (by omega)
    rw [Int.neg_tdiv, Int.neg_mul] at this
    omega
  omega

/-- **C06.** Formatting a whole-second timestamp of years 0 to 9999 and parsing the text gives the same timestamp,
for every clock resolution. -/
theorem C06_timestamp_roundtrip (junk : Nat → Str) (clk : Nat) (hclk : 0 < clk) (t : Int)
    (h : minSecond ≤ t ∧ t < endSecond) (hrep : InRep (t * clk)) :
    parseDatetime clk (toIsoDatetime junk clk (t * clk)) = .ok (t * clk) := by
  have ht := toTimeT_mul clk hclk t
  have := parse_format junk clk (t * clk) (by rw [ht]; exact h) (by rw [ht]; exact hrep)
  rw [ht] at this
  exact this

example : parseDatetime 1000000000 (toIsoDatetime (fun _ => []) 1000000000 (1700000000 * 1000000000))
    = .ok (1700000000 * 1000000000) :=
  C06_timestamp_roundtrip _ 1000000000 (by decide) 1700000000 (by decide) (by decide)
example : toIsoDatetime (fun _ => []) 1000000000 1700000000000000000 = lit "2023-11-14T22:13:20Z" := by decide +kernel

/-! ## Order -/

theorem digitChar_lt (a b : Nat) : digitChar a < digitChar b ↔ a % 10 < b % 10 := by
  have ha : digitChar a = digitChar (a % 10) := by simp [digitChar]
  have hb : digitChar b = digitChar (b % 10) := by simp [digitChar]
  rw [ha, hb, UInt8.lt_iff_toNat_lt, digitChar_toNat _ (by omega), digitChar_toNat _ (by omega)]
  omega

theorem digitChar_eq (a b : Nat) : digitChar a = digitChar b ↔ a % 10 = b % 10 := by
  constructor
  · intro h
    have := digitChar_val a
    rw [h, digitChar_val b] at this
    omega
  · exact digitChar_congr

theorem two_lt (a b : Nat) (u v : Str) (ha : a < 100) (hb : b < 100) :
    two a ++ u < two b ++ v ↔ a < b ∨ (a = b ∧ u < v) := by
  simp only [two, List.cons_append, List.nil_append, List.cons_lt_cons_iff, digitChar_lt, digitChar_eq]
  constructor
  · rintro (h | ⟨h, h' | ⟨h', h''⟩⟩)
    · left; omega
    · left; omega
    · right; exact ⟨by omega, h''⟩
  · rintro (h | ⟨rfl, h⟩)
    · by_cases hc : a / 10 % 10 < b / 10 % 10
      · exact Or.inl hc
      · right; exact ⟨by omega, Or.inl (by omega)⟩
    · right; exact ⟨rfl, Or.inr ⟨rfl, h⟩⟩

theorem four_lt (a b : Nat) (u v : Str) (ha : a < 10000) (hb : b < 10000) :
    four a ++ u < four b ++ v ↔ a < b ∨ (a = b ∧ u < v) := by
  simp only [four, List.cons_append, List.nil_append, List.cons_lt_cons_iff, digitChar_lt, digitChar_eq]
  constructor
  · rintro (h | ⟨h, h' | ⟨h', h'' | ⟨h'', h3 | ⟨h3, h4⟩⟩⟩⟩)
    · left; omega
    · left; omega
    · left; omega
    · left; omega
    · right; exact ⟨by omega, h4⟩
  · rintro (h | ⟨rfl, h⟩)
    · by_cases c1 : a / 1000 % 10 < b / 1000 % 10
      · exact Or.inl c1
      · right; refine ⟨by omega, ?_⟩
        by_cases c2 : a / 100 % 10 < b / 100 % 10
        · exact Or.inl c2
        · right; refine ⟨by omega, ?_⟩
          by_cases c3 : a / 10 % 10 < b / 10 % 10
          · exact Or.inl c3
          · right
            have e1 : a / 1000 = b / 1000 := by omega
            have e2 : a / 100 = b / 100 := by omega
            have e3 : a / 10 = b / 10 := by omega
            exact ⟨by omega, Or.inl (by omega)⟩
    · right; exact ⟨rfl, Or.inr ⟨rfl, Or.inr ⟨rfl, Or.inr ⟨rfl, h⟩⟩⟩⟩

theorem cons_lt_same (c : UInt8) (u v : Str) : [c] ++ u < [c] ++ v ↔ u < v := by
  simp

theorem isoText_lt (y m d h mi s y' m' d' h' mi' s' : Nat) (hy : y < 10000) (hy' : y' < 10000)
    (f : m < 100 ∧ d < 100 ∧ h < 100 ∧ mi < 100 ∧ s < 100)
    (f' : m' < 100 ∧ d' < 100 ∧ h' < 100 ∧ mi' < 100 ∧ s' < 100) :
    isoText 84 y m d h mi s < isoText 84 y' m' d' h' mi' s' ↔
      y < y' ∨ (y = y' ∧ (m < m' ∨ (m = m' ∧ (d < d' ∨ (d = d' ∧ (h < h' ∨ (h = h' ∧ (mi < mi' ∨ (mi = mi' ∧ s < s'))))))))) := by
  obtain ⟨f1, f2, f3, f4, f5⟩ := f
  obtain ⟨g1, g2, g3, g4, g5⟩ := f'
  simp only [isoText, List.append_assoc]
  rw [four_lt _ _ _ _ hy hy', cons_lt_same, two_lt _ _ _ _ f1 g1, cons_lt_same, two_lt _ _ _ _ f2 g2, cons_lt_same,
    two_lt _ _ _ _ f3 g3, cons_lt_same, two_lt _ _ _ _ f4 g4, cons_lt_same, two_lt _ _ _ _ f5 g5]
  simp

/-- **C08.** For timestamps of years 0 to 9999 the lexicographic order of the texts is the order of the whole seconds. -/
theorem C08_texts_sort_chronologically (junk : Nat → Str) (clk : Nat) (a b : Int)
    (ha : minSecond ≤ toTimeT clk a ∧ toTimeT clk a < endSecond)
    (hb : minSecond ≤ toTimeT clk b ∧ toTimeT clk b < endSecond) :
    toIsoDatetime junk clk a < toIsoDatetime junk clk b ↔ toTimeT clk a < toTimeT clk b := by
  rw [format_eq junk clk a ha, format_eq junk clk b hb]
  have ya := (seconds_year _).1 ha
  have yb := (seconds_year _).1 hb
  have va := gmtime_valid (toTimeT clk a)
  have vb := gmtime_valid (toTimeT clk b)
  have ga := timegm_gmtime (toTimeT clk a)
  have gb := timegm_gmtime (toTimeT clk b)
  generalize gmtime (toTimeT clk a) = ta at *
  generalize gmtime (toTimeT clk b) = tb at *
  rw [isoText_lt _ _ _ _ _ _ _ _ _ _ _ _ (by omega) (by omega) (tm_fields ta va) (tm_fields tb vb)]
  have l1 := timegm_lt ta tb va vb
  have l2 := timegm_lt tb ta vb va
  have heq : ta = tb → timegm ta = timegm tb := fun h => by rw [h]
  constructor
  · intro h
    have := l1 (by omega)
    omega
  · intro h
    apply Decidable.byContradiction
    intro hc
    have hle : timegm tb ≤ timegm ta := by
      by_cases hcase : (tb.year < ta.year ∨ (tb.year = ta.year ∧ (tb.month < ta.month ∨ (tb.month = ta.month ∧ (tb.day < ta.day ∨
        (tb.day = ta.day ∧ (tb.hour < ta.hour ∨ (tb.hour = ta.hour ∧ (tb.minute < ta.minute ∨
        (tb.minute = ta.minute ∧ tb.second < ta.second))))))))))
      · have := l2 hcase; omega
      · have : ta = tb := by
          obtain ⟨y, m, d, hh, mi, s⟩ := ta
          obtain ⟨y', m', d', hh', mi', s'⟩ := tb
          simp only [Tm.mk.injEq] at *
          omega
        have := heq this
        omega
    omega

example : toIsoDatetime (fun _ => []) 1000 (-1000) < toIsoDatetime (fun _ => []) 1000 5999 :=
  (C08_texts_sort_chronologically (fun _ => []) 1000 (-1000) 5999 (by decide) (by decide)).2 (by decide)

/-! ## Fractions of a second -/

/-- **C09, partial.** Formatting then parsing drops the fraction of the second towards the epoch: the result is less
than a second away, and not later than the original for instants after the epoch (not earlier for instants before).
Missing: instants before the epoch move forward, see `C09_moves_forward`. -/
theorem C09_subsecond_partial (junk : Nat → Str) (clk : Nat) (hclk : 0 < clk) (ticks : Int) (hrep : InRep ticks)
    (h : minSecond ≤ toTimeT clk ticks ∧ toTimeT clk ticks < endSecond) :
    ∃ r, parseDatetime clk (toIsoDatetime junk clk ticks) = .ok r ∧
      (0 ≤ ticks → r ≤ ticks ∧ ticks < r + clk) ∧ (ticks ≤ 0 → ticks ≤ r ∧ r < ticks + clk) := by
  refine ⟨_, parse_format junk clk ticks h (tdiv_mul_inRep clk ticks hrep), ?_, ?_⟩
  · intro h0
    have h1 := Int.mul_tdiv_add_tmod ticks clk
    rw [Int.mul_comm] at h1
    have h2 := Int.tmod_nonneg clk h0
    have h3 := Int.tmod_lt_of_pos ticks (b := clk) (by omega)
    unfold toTimeT
    omega
  · intro h0
    have h1 := Int.mul_tdiv_add_tmod ticks clk
    rw [Int.mul_comm] at h1
    have h2 := tmod_nonpos clk ticks h0
    have h3 := Int.lt_tmod_of_pos ticks (b := clk) (by omega)
    unfold toTimeT
    omega

example : ∃ r, parseDatetime 1000 (toIsoDatetime (fun _ => []) 1000 1999) = .ok r ∧
    (0 ≤ (1999 : Int) → r ≤ 1999 ∧ 1999 < r + (1000 : Nat)) ∧ ((1999 : Int) ≤ 0 → 1999 ≤ r ∧ r < 1999 + (1000 : Nat)) :=
  C09_subsecond_partial _ 1000 (by decide) 1999 (by decide) (by decide)

/-- **C09, full statement refuted.** Half a second before the epoch is written as the epoch itself. -/
theorem C09_moves_forward :
    InRep (-500) ∧ parseDatetime 1000 (toIsoDatetime (fun _ => []) 1000 (-500)) = .ok 0 := by decide +kernel

/-- **C09, partial.** Exactly which instants survive formatting and parsing: those on a whole second are read back unchanged
and no others; and exactly which move forward: those before the epoch that are not on a whole second. -/
theorem C09_exact_partial (junk : Nat → Str) (clk : Nat) (ticks : Int) (hrep : InRep ticks)
    (h : minSecond ≤ toTimeT clk ticks ∧ toTimeT clk ticks < endSecond) :
    ∃ r, parseDatetime clk (toIsoDatetime junk clk ticks) = .ok r ∧ (clk : Int) ∣ r ∧
      (r = ticks ↔ (clk : Int) ∣ ticks) ∧ (ticks < r ↔ ticks < 0 ∧ ¬ (clk : Int) ∣ ticks) := by
  refine ⟨_, parse_format junk clk ticks h (tdiv_mul_inRep clk ticks hrep), ?_, ?_, ?_⟩
  · exact Int.dvd_mul_left _ _
  · unfold toTimeT
    exact ⟨fun he => ⟨_, by rw [Int.mul_comm]; exact he.symm⟩, fun hd => Int.tdiv_mul_cancel hd⟩
  · have h1 := Int.mul_tdiv_add_tmod ticks clk
    rw [Int.mul_comm] at h1
    have h0 : ticks.tmod clk = 0 ↔ (clk : Int) ∣ ticks := (Int.dvd_iff_tmod_eq_zero ..).symm
    unfold toTimeT
    constructor
    · intro hlt
      refine ⟨?_, fun hd => ?_⟩
      · apply Decidable.byContradiction
        intro hn
        have h2 := Int.tmod_nonneg clk (a := ticks) (by omega)
        omega
      · have := h0.2 hd
        omega
    · rintro ⟨hneg, hnd⟩
      have h2 := tmod_nonpos clk ticks (by omega)
      have : ticks.tmod clk ≠ 0 := fun hz => hnd (h0.1 hz)
      omega

example : ∃ r, parseDatetime 1000 (toIsoDatetime (fun _ => []) 1000 (-1001)) = .ok r ∧ ((1000 : Nat) : Int) ∣ r ∧
    (r = -1001 ↔ ((1000 : Nat) : Int) ∣ -1001) ∧ (-1001 < r ↔ (-1001 : Int) < 0 ∧ ¬ ((1000 : Nat) : Int) ∣ -1001) :=
  C09_exact_partial _ 1000 (-1001) (by decide) (by decide)

/-! ## Representability -/

/-- **C10, partial.** With at most 10^7 ticks per second (100 ns, the resolution of MSVC; microseconds, libc++) every
accepted text yields a representable instant. -/
theorem C10_no_overflow_partial (clk : Nat) (hclk : clk ≤ 10000000) (text : Str) :
    parseDatetime clk text ≠ .overflow ∧ parseDate clk text ≠ .overflow := by
  have key : ∀ (tm : Tm), ValidTm tm → 0 ≤ tm.year → tm.year < 10000 → InRep (timegm tm * clk) := by
    intro tm hv h0 h1
    have hg := gmtime_timegm tm hv
    have hr := (seconds_year (timegm tm)).2 (by rw [hg]; omega)
    generalize timegm tm = t at *
    unfold minSecond endSecond at hr
    unfold InRep
    have hc : (clk : Int) ≤ 10000000 := by omega
    have hc0 : (0 : Int) ≤ clk := by omega
    constructor
    · have : -62167219200 * (clk : Int) ≤ t * clk := Int.mul_le_mul_of_nonneg_right hr.1 hc0
      omega
    · have : t * clk ≤ 253402300800 * (clk : Int) := Int.mul_le_mul_of_nonneg_right (by omega) hc0
      omega
  constructor
  · intro hov
    obtain ⟨sep, y, m, d, h, mi, s, hsep, hy, hv, rfl⟩ := (C07_parse_accepts_exactly clk text).1.1 (by rw [hov]; simp)
    rw [parse_isoText clk sep hsep y m d h mi s hy hv, if_pos (key _ hv (by simp) (by simp; omega))] at hov
    cases hov
  · intro hov
    unfold parseDate at hov
    split at hov
    · cases hov
    · rename_i hlen
      obtain ⟨a0, a1, a2, a3, a4, a5, a6, a7, a8, a9, rfl⟩ := list10 text (Decidable.byContradiction hlen)
      split at hov
      · cases hov
      · simp only [sub, List.drop, List.take, Nat.reduceSub] at hov
        split at hov
        · rename_i year month day hyear hmonth hday
          split at hov
          · rename_i hvalid
            have hvd := (isValidDate_iff year month day).1 hvalid
            obtain ⟨ty, hy⟩ := fromDigits_four_inv _ _ _ _ _ hyear
            have hk := key ⟨year, month, day, 0, 0, 0⟩ ⟨hvd, by simp, by simp, by simp⟩ (by simp) (by simp; omega)
            unfold makeDatetime at hov
            rw [fromTimeT_parsed, if_pos hk] at hov
            cases hov
          · cases hov
        · cases hov

example : parseDatetime 10000000 (lit "9999-12-31T23:59:59Z") ≠ .overflow := (C10_no_overflow_partial 10000000 (by decide) _).1
example : parseDatetime 10000000 (lit "9999-12-31T23:59:59Z") = .ok 2534023007990000000 := by decide +kernel

/-- **C10, full statement refuted.** With a nanosecond clock (libstdc++) an accepted text overflows, from the year 2262 on. -/
theorem C10_overflow_nanoseconds :
    parseDatetime 1000000000 (lit "2262-04-11T23:47:17Z") = .overflow ∧
    parseDatetime 1000000000 (lit "2262-04-11T23:47:16Z") = .ok 9223372036000000000 ∧
    parseDatetime 1000000000 (lit "1677-09-21T00:12:43Z") = .overflow := by decide +kernel

/-- **C10.** Exactly which accepted moments overflow. -/
theorem C10_overflow_iff (clk : Nat) (sep : UInt8) (hsep : sep = 84 ∨ sep = 32) (y m d h mi s : Nat) (hy : y < 10000)
    (hv : ValidTm ⟨y, m, d, h, mi, s⟩) :
    parseDatetime clk (isoText sep y m d h mi s) = .overflow ↔ ¬ InRep (timegm ⟨y, m, d, h, mi, s⟩ * clk) := by
  rw [parse_isoText clk sep hsep y m d h mi s hy hv]
  split <;> simp_all

/-! ## Texts of all timestamps -/

/-- **C12.** The text written for a timestamp parses back to the same second iff the year lies in 0 to 9999, whatever the
unspecified characters left by a failed digit conversion are. -/
theorem C12_written_parses_iff (junk : Nat → Str) (clk : Nat) (hclk : 0 < clk) (ticks : Int) (hrep : InRep ticks) :
    parseDatetime clk (toIsoDatetime junk clk ticks) = .ok (toTimeT clk ticks * clk) ↔
      minSecond ≤ toTimeT clk ticks ∧ toTimeT clk ticks < endSecond := by
  constructor
  · intro h
    obtain ⟨sep, y, m, d, hh, mi, s, hsep, hy, hv, he⟩ := (C07_parse_accepts_exactly clk _).1.1 (by rw [h]; simp)
    rw [he, parse_isoText clk sep hsep y m d hh mi s hy hv] at h
    split at h
    · simp only [Parsed.ok.injEq] at h
      have hc : (clk : Int) ≠ 0 := by omega
      have heq := Int.eq_of_mul_eq_mul_right hc h
      rw [← heq]
      apply (seconds_year _).2
      rw [gmtime_timegm _ hv]
      simp only
      omega
    · cases h
  · intro h
    exact parse_format junk clk ticks h (tdiv_mul_inRep clk ticks hrep)

/-- **C12, partial** (nanosecond clocks): every timestamp is written as a text that parses back to the same second.
Missing: coarser clocks reach years outside 0 to 9999, see `C12_year_10000`. -/
theorem C12_nanosecond_partial (junk : Nat → Str) (ticks : Int) (hrep : InRep ticks) :
    parseDatetime 1000000000 (toIsoDatetime junk 1000000000 ticks) = .ok (toTimeT 1000000000 ticks * (1000000000 : Nat)) := by
  refine (C12_written_parses_iff junk 1000000000 (by decide) ticks hrep).2 ?_
  have := tdiv_mul_inRep 1000000000 ticks hrep
  unfold InRep at this
  unfold minSecond endSecond
  omega

example : parseDatetime 1000000000 (toIsoDatetime (fun _ => []) 1000000000 (2 ^ 63 - 1))
    = .ok (toTimeT 1000000000 (2 ^ 63 - 1) * (1000000000 : Nat)) := C12_nanosecond_partial _ _ (by decide)

/-- **C12, full statement refuted.** With a microsecond clock the first second of the year 10000 is a valid timestamp, and
the text written for it never parses back to it, whatever the unspecified characters are. -/
theorem C12_year_10000 (junk : Nat → Str) :
    InRep (endSecond * 1000000) ∧
    parseDatetime 1000000 (toIsoDatetime junk 1000000 (endSecond * 1000000)) ≠ .ok (endSecond * 1000000) := by
  refine ⟨by decide, ?_⟩
  intro h
  have := (C12_written_parses_iff junk 1000000 (by decide) (endSecond * 1000000) (by decide)).1 h
  exact absurd this (by decide)

/-! ## Calendar dates -/

/-- **C11.** A date text is accepted iff it is `YYYY-MM-DD` and names an existing day; then the date read is that day (or the
tick count of its midnight overflows). -/
theorem C11_date_accepts_exactly (clk : Nat) (hclk : 0 < clk) (text : Str) :
    (readDate clk text ≠ .rejected ↔ ∃ y m d : Nat, y < 10000 ∧ ValidDate y m d ∧ text = isoDateText y m d) ∧
    (∀ y m d : Nat, y < 10000 → ValidDate (y : Int) m d → readDate clk (isoDateText y m d) =
      if InRep (dayNumber y m d * 86400 * clk) then .ok y m d else .overflow) := by
  have key : ∀ y m d : Nat, y < 10000 → ValidDate (y : Int) m d → readDate clk (isoDateText y m d) =
      if InRep (dayNumber y m d * 86400 * clk) then .ok y m d else .overflow := by
    intro y m d hy hv
    have hv' := hv
    obtain ⟨d1, d2, d3, d4⟩ := hv'
    have hd31 : d ≤ 31 := by
      have : monthLength y m ≤ 31 := by unfold monthLength; split <;> first | omega | (split <;> omega)
      omega
    have hp : parseDate clk (isoDateText y m d) =
        if InRep (dayNumber y m d * 86400 * clk) then .ok (dayNumber y m d * 86400 * clk) else .overflow := by
      unfold parseDate
      have e1 : sub (isoDateText y m d) 0 4 = four y := rfl
      have e2 : sub (isoDateText y m d) 5 7 = two m := rfl
      have e3 : sub (isoDateText y m d) 8 10 = two d := rfl
      have a1 : at? (isoDateText y m d) 4 = some 45 := rfl
      have a2 : at? (isoDateText y m d) 7 = some 45 := rfl
      rw [if_neg (by simp [isoDateText, four, two]), a1, a2, if_neg (by simp), e1, e2, e3, fromDigits_four y hy,
        fromDigits_two m (by omega), fromDigits_two d (by omega)]
      simp only [(isValidDate_iff y m d).2 hv, if_true]
      unfold makeDatetime
      rw [fromTimeT_parsed]
      simp [timegm]
    unfold readDate
    rw [hp]
    split
    · rename_i hx
      split at hx <;> cases hx
    · rename_i hx
      split at hx
      · cases hx
      · rename_i hn; rw [if_neg hn]
    · rename_i ticks hx
      split at hx
      · rename_i hin
        cases hx
        rw [if_pos hin]
        have : (dayNumber y m d * 86400 * (clk : Int)).tdiv (86400 * clk) = dayNumber y m d := by
          rw [Int.mul_assoc]
          exact Int.mul_tdiv_cancel _ (by omega)
        simp only [this, civil_dayNumber y m d hv]
      · cases hx
  refine ⟨⟨?_, ?_⟩, key⟩
  · intro hne
    have hne' : parseDate clk text ≠ .rejected := by
      intro hc; unfold readDate at hne; rw [hc] at hne; exact hne rfl
    unfold parseDate at hne'
    split at hne'
    · exact absurd rfl hne'
    · rename_i hlen
      obtain ⟨a0, a1, a2, a3, a4, a5, a6, a7, a8, a9, rfl⟩ := list10 text (Decidable.byContradiction hlen)
      split at hne'
      · exact absurd rfl hne'
      · rename_i hs
        simp only [at?, List.getElem?_cons_zero, List.getElem?_cons_succ, not_or, ne_eq, Option.some.injEq,
          Decidable.not_not] at hs
        simp only [sub, List.drop, List.take, Nat.reduceSub] at hne'
        split at hne'
        · rename_i year month day hyear hmonth hday
          split at hne'
          · rename_i hvalid
            obtain ⟨ty, hy⟩ := fromDigits_four_inv _ _ _ _ _ hyear
            obtain ⟨tm, _⟩ := fromDigits_two_inv _ _ _ hmonth
            obtain ⟨td, _⟩ := fromDigits_two_inv _ _ _ hday
            refine ⟨year, month, day, hy, (isValidDate_iff _ _ _).1 hvalid, ?_⟩
            unfold isoDateText
            rw [← ty, ← tm, ← td, hs.1, hs.2]
            rfl
          · exact absurd rfl hne'
        · exact absurd rfl hne'
  · rintro ⟨y, m, d, hy, hv, rfl⟩
    rw [key y m d hy hv]
    split <;> simp

/-- **C11.** Formatting a calendar date of years 0 to 9999 and reading it gives the same date. -/
theorem C11_date_roundtrip (junk : Nat → Str) (clk : Nat) (hclk : 0 < clk) (y m d : Nat) (hy : y < 10000)
    (hv : ValidDate (y : Int) m d) (hrep : InRep (dayNumber y m d * 86400 * clk)) :
    ∃ text, formatDate junk clk y m d = some text ∧ readDate clk text = .ok y m d := by
  refine ⟨isoDateText y m d, ?_, ?_⟩
  · unfold formatDate sysDays
    rw [if_pos hrep]
    simp only [Option.map_some, Option.some.injEq]
    unfold toIsoDate
    rw [toTimeT_mul clk hclk]
    have hg := gmtime_timegm ⟨y, m, d, 0, 0, 0⟩ ⟨hv, by simp, by simp, by simp⟩
    have ht : timegm ⟨y, m, d, 0, 0, 0⟩ = dayNumber y m d * 86400 := by simp [timegm]
    rw [ht] at hg
    rw [hg]
    obtain ⟨f1, f2, -⟩ := tm_fields ⟨y, m, d, 0, 0, 0⟩ ⟨hv, by simp, by simp, by simp⟩
    simp only at f1 f2
    simp only
    rw [field4_eq junk y hy, field2_eq junk m f1, field2_eq junk d f2]
    rfl
  · rw [(C11_date_accepts_exactly clk hclk []).2 y m d hy hv, if_pos hrep]

example : ∃ text, formatDate (fun _ => []) 1000000000 (2000 : Nat) 2 29 = some text ∧
    readDate 1000000000 text = .ok (2000 : Nat) 2 29 :=
  C11_date_roundtrip _ 1000000000 (by decide) 2000 2 29 (by decide) ⟨by decide, by decide, by decide, by decide⟩ (by decide)
example : readDate 1000000000 (lit "2001-02-29") = .rejected := by decide +kernel

end Verif.Props
