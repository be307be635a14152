import Verif.Basic

/-!
# Decimal texts

`std::to_chars` and `std::from_chars` for integers in base 10 (standard library contract).
-/

namespace Verif

/-- The character of a decimal digit. -/
def digitChar (d : Nat) : UInt8 := UInt8.ofNat (48 + d % 10)

/-- Decimal digits of a natural number without leading zeros; `fuel` bounds the number of digits. -/
def decimalFuel : Nat → Nat → Str
  | 0, n => [digitChar n]
  | fuel+1, n => if n < 10 then [digitChar n] else decimalFuel fuel (n / 10) ++ [digitChar n]

/-- What `std::to_chars` writes for a non-negative integer. -/
def decimal (n : Nat) : Str := decimalFuel n n

/-- What `std::to_chars` writes for an integer. -/
def decimalInt (v : Int) : Str := if v < 0 then 45 :: decimal v.natAbs else decimal v.natAbs

/-- A decimal digit character. -/
def isDigit (c : UInt8) : Bool := decide (48 ≤ c.toNat) && decide (c.toNat ≤ 57)

/-- The number denoted by digit characters, most significant first. -/
def digitsValue (s : Str) : Nat := s.foldl (fun acc c => acc * 10 + (c.toNat - 48)) 0

/-- `std::from_chars(first, last, unsigned& value)` followed by `ec == errc() && ptr == last`: at least
one character, digits only (no sign, no blank), value in the range of `unsigned`. -/
def fromDigits (s : Str) : Option Nat :=
  if s ≠ [] ∧ s.all isDigit = true ∧ digitsValue s < 2 ^ 32 then some (digitsValue s) else none

theorem digitChar_toNat (d : Nat) (h : d < 10) : (digitChar d).toNat = 48 + d := by
  unfold digitChar
  rw [Nat.mod_eq_of_lt h]
  simp only [UInt8.toNat_ofNat', Nat.reducePow]
  omega

theorem isDigit_digitChar (d : Nat) : isDigit (digitChar d) = true := by
  have : digitChar d = digitChar (d % 10) := by simp [digitChar]
  rw [this]
  have h := digitChar_toNat (d % 10) (by omega)
  simp only [isDigit, h, Bool.and_eq_true, decide_eq_true_eq]
  omega

theorem decimalFuel_irrel (f f' n : Nat) (h : n ≤ f) (h' : n ≤ f') : decimalFuel f n = decimalFuel f' n := by
  induction n using Nat.strongRecOn generalizing f f' with
  | ind n ih =>
    cases f with
    | zero =>
      have : n = 0 := by omega
      subst this
      cases f' <;> simp [decimalFuel]
    | succ f =>
      cases f' with
      | zero =>
        have : n = 0 := by omega
        subst this
        simp [decimalFuel]
      | succ f' =>
        simp only [decimalFuel]
        split
        · rfl
        · rw [ih (n / 10) (by omega) f f' (by omega) (by omega)]

theorem decimal_lt (n : Nat) (h : n < 10) : decimal n = [digitChar n] := by
  unfold decimal
  cases n <;> simp [decimalFuel, h]

theorem decimal_ge (n : Nat) (h : 10 ≤ n) : decimal n = decimal (n / 10) ++ [digitChar n] := by
  unfold decimal
  cases n with
  | zero => omega
  | succ n =>
    rw [decimalFuel, if_neg (by omega), decimalFuel_irrel n ((n + 1) / 10) _ (by omega) (by omega)]

theorem digitsValue_append (s : Str) (c : UInt8) : digitsValue (s ++ [c]) = digitsValue s * 10 + (c.toNat - 48) := by
  simp [digitsValue]

theorem digitsValue_decimal (n : Nat) : digitsValue (decimal n) = n := by
  induction n using Nat.strongRecOn with
  | ind n ih =>
    by_cases h : n < 10
    · rw [decimal_lt n h]
      simp [digitsValue, digitChar_toNat n h]
    · rw [decimal_ge n (by omega), digitsValue_append, ih (n / 10) (by omega)]
      have : digitChar n = digitChar (n % 10) := by simp [digitChar]
      rw [this, digitChar_toNat _ (by omega)]
      omega

theorem decimal_digits (n : Nat) : (decimal n).all isDigit = true := by
  induction n using Nat.strongRecOn with
  | ind n ih =>
    by_cases h : n < 10
    · rw [decimal_lt n h]; simp [isDigit_digitChar]
    · rw [decimal_ge n (by omega), List.all_append, ih (n / 10) (by omega)]
      simp [isDigit_digitChar]

theorem decimal_ne_nil (n : Nat) : decimal n ≠ [] := by
  by_cases h : n < 10
  · rw [decimal_lt n h]; simp
  · rw [decimal_ge n (by omega)]; simp

theorem decimal_injective {m n : Nat} (h : decimal m = decimal n) : m = n := by
  rw [← digitsValue_decimal m, ← digitsValue_decimal n, h]

theorem fromDigits_decimal (n : Nat) (h : n < 2 ^ 32) : fromDigits (decimal n) = some n := by
  unfold fromDigits
  rw [if_pos ⟨decimal_ne_nil n, decimal_digits n, by rw [digitsValue_decimal]; exact h⟩, digitsValue_decimal]

theorem decimal_two (n : Nat) (h1 : 10 ≤ n) (h2 : n < 100) : decimal n = [digitChar (n / 10), digitChar n] := by
  rw [decimal_ge n h1, decimal_lt _ (by omega)]; rfl

theorem decimal_three (n : Nat) (h1 : 100 ≤ n) (h2 : n < 1000) :
    decimal n = [digitChar (n / 100), digitChar (n / 10), digitChar n] := by
  rw [decimal_ge n (by omega), decimal_two _ (by omega) (by omega), Nat.div_div_eq_div_mul]; rfl

theorem decimal_four (n : Nat) (h1 : 1000 ≤ n) (h2 : n < 10000) :
    decimal n = [digitChar (n / 1000), digitChar (n / 100), digitChar (n / 10), digitChar n] := by
  rw [decimal_ge n (by omega), decimal_three _ (by omega) (by omega), Nat.div_div_eq_div_mul,
    Nat.div_div_eq_div_mul]; rfl

theorem decimal_length_five (n : Nat) (h : 10000 ≤ n) : 5 ≤ (decimal n).length := by
  rw [decimal_ge n (by omega), decimal_ge (n / 10) (by omega), decimal_ge (n / 10 / 10) (by omega),
    decimal_ge (n / 10 / 10 / 10) (by omega)]
  have := List.length_pos_iff.2 (decimal_ne_nil (n / 10 / 10 / 10 / 10))
  simp only [List.length_append, List.length_cons, List.length_nil]
  omega

end Verif
