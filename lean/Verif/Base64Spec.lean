import Verif.Basic

/-!
# Specification of Base64 (RFC 4648, section 4), written without reference to the C++ code

A byte sequence is a bit string; it is cut in 6-bit groups (the last one filled with zero bits),
each group is mapped through the alphabet, and `=` pads the text to a multiple of four characters.
-/

namespace Verif.Base64.Spec

/-- The alphabet of RFC 4648 table 1 by ranges: A–Z, a–z, 0–9, +, /. -/
def alphabet (i : Nat) : UInt8 :=
  if i < 26 then UInt8.ofNat (65 + i)
  else if i < 52 then UInt8.ofNat (97 + (i - 26))
  else if i < 62 then UInt8.ofNat (48 + (i - 52))
  else if i = 62 then 43
  else 47

/-- The value of an alphabet character, if it is one. -/
def symbol (c : UInt8) : Option Nat := (List.range 64).find? fun i => alphabet i == c

/-- Most significant bit first. -/
def bitsOf (width : Nat) (v : Nat) : List Bool :=
  (List.range width).map fun i => v.testBit (width - 1 - i)

/-- Value of a bit string, most significant bit first. -/
def valueOf (bs : List Bool) : Nat := bs.foldl (fun acc b => 2 * acc + b.toNat) 0

/-- Groups of six bits, the last group filled with zero bits. -/
def groups6 : List Bool → List (List Bool)
  | [] => []
  | [a] => [[a, false, false, false, false, false]]
  | [a, b] => [[a, b, false, false, false, false]]
  | [a, b, c] => [[a, b, c, false, false, false]]
  | [a, b, c, d] => [[a, b, c, d, false, false]]
  | [a, b, c, d, e] => [[a, b, c, d, e, false]]
  | a :: b :: c :: d :: e :: f :: rest => [a, b, c, d, e, f] :: groups6 rest

/-- Groups of eight bits, an incomplete last group is dropped. -/
def groups8 : List Bool → List (List Bool)
  | a :: b :: c :: d :: e :: f :: g :: h :: rest => [a, b, c, d, e, f, g, h] :: groups8 rest
  | _ => []

/-- The Base64 text without padding. -/
def unpadded (bs : Str) : Str :=
  (groups6 (bs.flatMap fun b => bitsOf 8 b.toNat)).map fun g => alphabet (valueOf g)

/-- The Base64 text of RFC 4648. -/
def text (bs : Str) : Str :=
  unpadded bs ++ List.replicate ((4 - (unpadded bs).length % 4) % 4) 61

/-- All symbol values of a text, if all its characters belong to the alphabet. -/
def symbols : Str → Option (List Nat)
  | [] => some []
  | c :: cs => match symbol c, symbols cs with
    | some v, some vs => some (v :: vs)
    | _, _ => none

/-- Removes a trailing `==` or `=`. -/
def strip (s : Str) : Str :=
  if s.drop (s.length - 2) = [61, 61] then s.take (s.length - 2)
  else if s.drop (s.length - 1) = [61] then s.take (s.length - 1)
  else s

/-- The bytes denoted by a padded Base64 text: the bit string of the symbols regrouped to bytes. -/
def bytes (s : Str) : Option Str :=
  if s.length % 4 ≠ 0 then none
  else (symbols (strip s)).map fun vs =>
    (groups8 (vs.flatMap (bitsOf 6))).map fun g => UInt8.ofNat (valueOf g)

/-- What a refused text leaves behind: nothing if the length is wrong; otherwise the bytes of the groups of four characters in front of the
first one with a character outside of the alphabet (which includes `=`), and a zero for each remaining byte. -/
def wreck (s : Str) : Str :=
  if s.length % 4 ≠ 0 then []
  else
    let good := (s.takeWhile fun c => (symbol c).isSome).length / 4
    (bytes (s.take (4 * good))).getD [] ++ List.replicate (3 * (s.length / 4 - good)) 0

end Verif.Base64.Spec
