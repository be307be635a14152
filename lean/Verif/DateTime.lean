import Verif.Decimal

/-!
# Model of /repo/include/persistence/datetime.hpp

A `timestamp` is the 64-bit tick count of `std::chrono::system_clock`; the number of ticks per second
(`10^9` for libstdc++, `10^6` for libc++, `10^7` for MSVC) is the parameter `clk`. `gmtime` and `timegm`
are the proleptic Gregorian calendar (C library contract); they are defined here by counting years and
months. `std::time_t` has 64 bits and does not overflow for the years handled here.
-/

namespace Verif.DateTime

/-! ## Calendar (C library contract) -/

/-- Gregorian leap year. -/
def leap (y : Int) : Bool := decide (y % 4 = 0 ∧ (y % 100 ≠ 0 ∨ y % 400 = 0))

/-- Length of a year. -/
def yearLength (y : Int) : Nat := if leap y then 366 else 365

/-- Length of month `m` (1 to 12). -/
def monthLength (y : Int) (m : Nat) : Nat :=
  match m with
  | 1 => 31 | 2 => if leap y then 29 else 28 | 3 => 31 | 4 => 30 | 5 => 31 | 6 => 30
  | 7 => 31 | 8 => 31 | 9 => 30 | 10 => 31 | 11 => 30 | 12 => 31 | _ => 0

/-- Days from 1970-01-01 to the first day of year `y`. -/
def daysBeforeYear (y : Int) : Int := 365 * y + (y + 3) / 4 - (y + 99) / 100 + (y + 399) / 400 - 719528

/-- Days from the first day of the year to the first day of month `m`. -/
def daysBeforeMonth (y : Int) : Nat → Nat
  | 0 => 0
  | 1 => 0
  | m+1 => daysBeforeMonth y m + monthLength y m

/-- Broken-down time (`std::tm`, with the year and month as people count them). -/
structure Tm where
  year : Int
  month : Nat
  day : Nat
  hour : Nat
  minute : Nat
  second : Nat
deriving DecidableEq, Repr

/-- Days from 1970-01-01 to the given date. -/
def dayNumber (y : Int) (m d : Nat) : Int := daysBeforeYear y + daysBeforeMonth y m + d - 1

/-- `timegm` / `_mkgmtime` on fields in their normal ranges (datetime.hpp:11-31). -/
def timegm (tm : Tm) : Int :=
  dayNumber tm.year tm.month tm.day * 86400 + tm.hour * 3600 + tm.minute * 60 + tm.second

/-- Year and remaining days: count whole years from year `y`. -/
def yearLoop : Nat → Int → Nat → Int × Nat
  | 0, y, r => (y, r)
  | fuel+1, y, r => if r < yearLength y then (y, r) else yearLoop fuel (y + 1) (r - yearLength y)

/-- Month and remaining days: count whole months from month `m`. -/
def monthLoop (y : Int) : Nat → Nat → Nat → Nat × Nat
  | 0, m, r => (m, r)
  | fuel+1, m, r => if r < monthLength y m then (m, r) else monthLoop y fuel (m + 1) (r - monthLength y m)

/-- The calendar date of a day number. -/
def civil (days : Int) : Int × Nat × Nat :=
  let n := days + 719528
  let yr := yearLoop 400 (400 * (n / 146097)) (n % 146097).toNat
  let mr := monthLoop yr.1 12 1 yr.2
  (yr.1, mr.1, mr.2 + 1)

/-- `gmtime` (used at datetime.hpp:253 and 277). -/
def gmtime (t : Int) : Tm :=
  let date := civil (t / 86400)
  let s := (t % 86400).toNat
  { year := date.1, month := date.2.1, day := date.2.2, hour := s / 3600, minute := s / 60 % 60, second := s % 60 }

/-! ## Clock -/

/-- The value fits the 64-bit representation of the clock. -/
def InRep (v : Int) : Prop := -2 ^ 63 ≤ v ∧ v < 2 ^ 63

instance (v : Int) : Decidable (InRep v) := inferInstanceAs (Decidable (_ ∧ _))

/-- `system_clock::to_time_t` (datetime.hpp:250, 274): conversion to whole seconds, which truncates
towards zero. -/
def toTimeT (clk : Nat) (ticks : Int) : Int := ticks.tdiv clk

/-- `system_clock::from_time_t` (datetime.hpp:51): `none` is signed overflow of the tick count, which is
undefined behaviour. -/
def fromTimeT (clk : Nat) (t : Int) : Option Int := if InRep (t * clk) then some (t * clk) else none

/-- `make_datetime` (datetime.hpp:41-52). `year - 1900` is computed modulo 2^32 and converted to `int`,
which gives the mathematical difference. -/
def makeDatetime (clk : Nat) (year month day hour minute second : Nat) : Option Int :=
  fromTimeT clk (timegm ⟨year, month, day, hour, minute, second⟩)

/-! ## Validity -/

/-- `is_leap_year` (datetime.hpp:54-57). -/
def isLeapYear (year : Nat) : Bool :=
  (decide (year % 4 = 0) && decide (year % 100 ≠ 0)) || decide (year % 400 = 0)

/-- `is_valid_date` (datetime.hpp:59-90). -/
def isValidDate (year month day : Nat) : Bool :=
  if day < 1 then false
  else
    match month with
    | 1 | 3 | 5 | 7 | 8 | 10 | 12 => decide (day ≤ 31)
    | 4 | 6 | 9 | 11 => decide (day ≤ 30)
    | 2 => if isLeapYear year then decide (day ≤ 29) else decide (day ≤ 28)
    | _ => false

/-! ## Parsing -/

/-- Outcome of a parser: `false`, `true` with the assigned tick count, or overflow in `make_datetime`. -/
inductive Parsed
  | rejected
  | ok (ticks : Int)
  | overflow
deriving DecidableEq, Repr

/-- The outcome of assigning the result of `make_datetime`. -/
def Parsed.of : Option Int → Parsed
  | some v => .ok v
  | none => .overflow

/-- `text[i]`. -/
def at? (text : Str) (i : Nat) : Option UInt8 := text[i]?

/-- Characters `first` to `last - 1`. -/
def sub (text : Str) (first last : Nat) : Str := (text.drop first).take (last - first)

/-- `parse_date` (datetime.hpp:104-130). -/
def parseDate (clk : Nat) (text : Str) : Parsed :=
  if text.length ≠ 10 then .rejected
  else if at? text 4 ≠ some 45 ∨ at? text 7 ≠ some 45 then .rejected
  else
    match fromDigits (sub text 0 4), fromDigits (sub text 5 7), fromDigits (sub text 8 10) with
    | some year, some month, some day =>
        if isValidDate year month day then .of (makeDatetime clk year month day 0 0 0) else .rejected
    | _, _, _ => .rejected

/-- `parse_datetime` (datetime.hpp:135-171). -/
def parseDatetime (clk : Nat) (text : Str) : Parsed :=
  if text.length ≠ 20 then .rejected
  else if at? text 4 ≠ some 45 ∨ at? text 7 ≠ some 45 ∨
      (at? text 10 ≠ some 84 ∧ at? text 10 ≠ some 32) ∨
      at? text 13 ≠ some 58 ∨ at? text 16 ≠ some 58 ∨ at? text 19 ≠ some 90 then .rejected
  else
    match fromDigits (sub text 0 4), fromDigits (sub text 5 7), fromDigits (sub text 8 10),
      fromDigits (sub text 11 13), fromDigits (sub text 14 16), fromDigits (sub text 17 19) with
    | some year, some month, some day, some hour, some minute, some second =>
        if !isValidDate year month day then .rejected
        else if hour ≥ 24 ∨ minute ≥ 60 ∨ second ≥ 60 then .rejected
        else .of (makeDatetime clk year month day hour minute second)
    | _, _, _, _, _, _ => .rejected

/-! ## Formatting -/

/-- `std::to_chars(ptr, last, value)` into a field whose remaining characters are `'0'`: on
`value_too_large` the content of the range is unspecified (`junk`). -/
def toChars (junk : Nat → Str) (room : Nat) (value : Int) : Str :=
  if (decimalInt value).length ≤ room
  then decimalInt value ++ List.replicate (room - (decimalInt value).length) 48
  else junk room

/-- `AlignedDigitWriter<4>` (datetime.hpp:180-193) on a field that holds `0000`. -/
def field4 (junk : Nat → Str) (value : Int) : Str :=
  if value < 10 then [48, 48, 48] ++ toChars junk 1 value
  else if value < 100 then [48, 48] ++ toChars junk 2 value
  else if value < 1000 then [48] ++ toChars junk 3 value
  else toChars junk 4 value

/-- `AlignedDigitWriter<2>` (datetime.hpp:195-204) on a field that holds `00`. -/
def field2 (junk : Nat → Str) (value : Int) : Str :=
  if value < 10 then [48] ++ toChars junk 1 value else toChars junk 2 value

/-- `to_iso_date` (datetime.hpp:216-225 and 247-266). -/
def toIsoDate (junk : Nat → Str) (clk : Nat) (ticks : Int) : Str :=
  let tm := gmtime (toTimeT clk ticks)
  field4 junk tm.year ++ [45] ++ field2 junk tm.month ++ [45] ++ field2 junk tm.day

/-- `to_iso_datetime` (datetime.hpp:230-242 and 271-296). -/
def toIsoDatetime (junk : Nat → Str) (clk : Nat) (ticks : Int) : Str :=
  let tm := gmtime (toTimeT clk ticks)
  field4 junk tm.year ++ [45] ++ field2 junk tm.month ++ [45] ++ field2 junk tm.day ++ [84] ++
    field2 junk tm.hour ++ [58] ++ field2 junk tm.minute ++ [58] ++ field2 junk tm.second ++ [90]

/-! ## Calendar dates (C++20 `std::chrono::year_month_day`) -/

/-- `std::chrono::sys_days(value)` as a `timestamp` (serialize_date.hpp:18, write_date.hpp:15): days
converted to ticks; `none` is overflow. -/
def sysDays (clk : Nat) (y : Int) (m d : Nat) : Option Int :=
  if InRep (dayNumber y m d * 86400 * clk) then some (dayNumber y m d * 86400 * clk) else none

/-- The text of a calendar date (serialize_date.hpp:16-21, write_date.hpp:13-18); `none` is overflow. -/
def formatDate (junk : Nat → Str) (clk : Nat) (y : Int) (m d : Nat) : Option Str :=
  (sysDays clk y m d).map (toIsoDate junk clk)

/-- Outcome of reading a calendar date. -/
inductive ParsedDate
  | rejected
  | ok (y : Int) (m d : Nat)
  | overflow
deriving DecidableEq, Repr

/-- `value = std::chrono::time_point_cast<std::chrono::days>(ts)` after `parse_date`
(deserialize_date.hpp:24-37, parse_date.hpp:21-32); the cast truncates towards zero. -/
def readDate (clk : Nat) (text : Str) : ParsedDate :=
  match parseDate clk text with
  | .rejected => .rejected
  | .overflow => .overflow
  | .ok ticks => let c := civil (ticks.tdiv (86400 * clk)); .ok c.1 c.2.1 c.2.2

end Verif.DateTime
