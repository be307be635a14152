import Verif.Basic

/-!
# Numbers

Model of /repo/include/persistence/detail/numeric_traits.hpp, of the numeric parts of
parse_fundamental.hpp and of deserialize_fundamental.hpp, for the LP64 data model (`char` signed).

Integers are mathematical integers together with the C++ type they are stored in. Floating-point
numbers are exact: NaN, infinities, signed zeros and `±(2k+1)·2^e`, which is a normal form, so that
equality of finite values is structural equality, and widening `float` to `double` is the identity.
-/

namespace Verif.Numeric

/-! ## Types -/

/-- Sizes of the integer types. -/
inductive Width
  | w8 | w16 | w32 | w64
deriving DecidableEq, Repr

/-- `sizeof(T) * 8`. -/
def Width.bits : Width → Nat
  | .w8 => 8 | .w16 => 16 | .w32 => 32 | .w64 => 64

/-- A C++ integer type: size and signedness (`char` is signed; `long` and `long long` coincide). -/
structure IntTy where
  width : Width
  signed : Bool
deriving DecidableEq, Repr

/-- `std::numeric_limits<T>::min()`. -/
def IntTy.min (t : IntTy) : Int := if t.signed then -(2 ^ (t.width.bits - 1) : Nat) else 0

/-- `std::numeric_limits<T>::max()`. -/
def IntTy.max (t : IntTy) : Int :=
  if t.signed then (2 ^ (t.width.bits - 1) : Nat) - 1 else (2 ^ t.width.bits : Nat) - 1

/-- `std::numeric_limits<T>::digits`. -/
def IntTy.digits (t : IntTy) : Nat := if t.signed then t.width.bits - 1 else t.width.bits

/-- Values of the type. -/
def IntTy.InRange (t : IntTy) (v : Int) : Prop := t.min ≤ v ∧ v ≤ t.max

instance (t : IntTy) (v : Int) : Decidable (t.InRange v) := inferInstanceAs (Decidable (_ ∧ _))

/-- `static_cast<T>(v)` for integers: reduction modulo `2^bits`. -/
def IntTy.cast (t : IntTy) (v : Int) : Int :=
  let r := v % (2 ^ t.width.bits : Nat)
  if t.signed = true ∧ (2 ^ (t.width.bits - 1) : Nat) ≤ r then r - (2 ^ t.width.bits : Nat) else r

/-- The IEEE 754 formats: precision and the exponents of the unit in the last place. -/
inductive FltTy
  | float | double
deriving DecidableEq, Repr

/-- `std::numeric_limits<T>::digits`. -/
def FltTy.digits : FltTy → Nat
  | .float => 24 | .double => 53

/-- Least exponent of a unit in the last place. -/
def FltTy.emin : FltTy → Int
  | .float => -149 | .double => -1074

/-- Greatest exponent of a unit in the last place. -/
def FltTy.emax : FltTy → Int
  | .float => 104 | .double => 971

/-- `sizeof(T)`. -/
def FltTy.size : FltTy → Nat
  | .float => 4 | .double => 8

/-! ## Floating-point values -/

/-- A floating-point value; `fin neg k e` is `±(2k+1)·2^e`. -/
inductive Flt
  | nan
  | inf (neg : Bool)
  | zero (neg : Bool)
  | fin (neg : Bool) (k : Nat) (e : Int)
deriving DecidableEq, Repr

/-- Bit length. -/
def bitLen (m : Nat) : Nat := if m = 0 then 0 else m.log2 + 1

/-- The value `±m·2^e` in normal form; `fuel` bounds the number of trailing zero bits. -/
def normFuel : Nat → Bool → Nat → Int → Flt
  | 0, neg, _, _ => .zero neg
  | fuel+1, neg, m, e =>
      if m = 0 then .zero neg
      else if m % 2 = 1 then .fin neg (m / 2) e
      else normFuel fuel neg (m / 2) (e + 1)

/-- The value `±m·2^e`. -/
def norm (neg : Bool) (m : Nat) (e : Int) : Flt := normFuel m neg m e

/-- `m·2^e ≤ m'·2^e'`. -/
def dyadicLe (m : Nat) (e : Int) (m' : Nat) (e' : Int) : Bool :=
  m * 2 ^ (e - e').toNat ≤ m' * 2 ^ (e' - e).toNat

/-- Finite value. -/
def Flt.isFinite : Flt → Bool
  | .nan => false
  | .inf _ => false
  | _ => true

/-- The value is a value of the format. -/
def Flt.Fits (t : FltTy) : Flt → Prop
  | .fin _ k e => bitLen (2 * k + 1) ≤ t.digits ∧ t.emin ≤ e ∧ bitLen (2 * k + 1) + e ≤ t.digits + t.emax
  | _ => True

instance (t : FltTy) (f : Flt) : Decidable (f.Fits t) := by
  cases f <;> unfold Flt.Fits <;> infer_instance

/-- IEEE 754 conversion of `±m·2^e` (`m > 0`), rounding to nearest, ties to even; too large values
become infinite. This is the meaning of `static_cast` to a floating-point type. -/
def roundPos (t : FltTy) (neg : Bool) (m : Nat) (e : Int) : Flt :=
  let q := max t.emin (e + bitLen m - t.digits)
  if q ≤ e then
    if (bitLen m : Int) + e ≤ t.digits + t.emax then norm neg m e else .inf neg
  else
    let s := (q - e).toNat
    let hi := m / 2 ^ s
    let rem := m % 2 ^ s
    let half := 2 ^ (s - 1)
    let hi' := if half < rem ∨ (rem = half ∧ hi % 2 = 1) then hi + 1 else hi
    if (bitLen hi' : Int) + q ≤ t.digits + t.emax then norm neg hi' q else .inf neg

/-- `static_cast<T>(f)` between floating-point types. -/
def Flt.round (t : FltTy) : Flt → Flt
  | .fin neg k e => roundPos t neg (2 * k + 1) e
  | f => f

/-- An integer as an exact value. -/
def Flt.ofInt (v : Int) : Flt := norm (v < 0) v.natAbs 0

/-- `static_cast<T>(v)` from an integer to a floating-point type. -/
def Flt.castInt (t : FltTy) (v : Int) : Flt := (Flt.ofInt v).round t

/-! ## `is_assignable` -/

/-- `is_assignable<T>(V value)` for integral `T` and integral `V` (numeric_traits.hpp:20-52). The
comparisons are between values of equal signedness, hence comparisons of integers. -/
def isAssignableIntInt (T V : IntTy) (value : Int) : Bool :=
  if T.signed && V.signed then
    if T.width.bits ≥ V.width.bits then true
    else decide (value ≥ T.min) && decide (value ≤ T.max)
  else if !T.signed && !V.signed then
    if T.width.bits ≥ V.width.bits then true
    else decide (value ≤ T.max)
  else if !T.signed && V.signed then
    if T.width.bits ≥ V.width.bits then decide (value ≥ 0)
    else decide (value ≥ 0) && decide (value ≤ T.max)
  else
    if T.width.bits > V.width.bits then true
    else decide (value ≤ T.max)

/-- `is_assignable<T>(V value)` for floating-point `T` and integral `V` (numeric_traits.hpp:70-85). -/
def isAssignableFltInt (T : FltTy) (V : IntTy) (value : Int) : Bool :=
  if T.digits ≥ V.digits then true
  else if V.signed then decide (value > -(2 ^ T.digits : Nat)) && decide (value < (2 ^ T.digits : Nat))
  else decide (value < (2 ^ T.digits : Nat))

/-- `value >= std::numeric_limits<T>::lowest() && value <= std::numeric_limits<T>::max()`
(numeric_traits.hpp:68): false for NaN and infinities. -/
def withinRange (T : FltTy) : Flt → Bool
  | .nan => false
  | .inf _ => false
  | .zero _ => true
  | .fin _ k e => dyadicLe (2 * k + 1) e (2 ^ T.digits - 1) T.emax

/-- `is_assignable<T>(V value)` for floating-point types (numeric_traits.hpp:62-69). -/
def isAssignableFltFlt (T V : FltTy) (value : Flt) : Bool :=
  if T.size ≥ V.size then true else withinRange T value

/-! ## Numeric targets -/

/-- A numeric C++ type. -/
inductive NumTy
  | int (t : IntTy)
  | flt (t : FltTy)
deriving DecidableEq, Repr

/-- A number stored in a variable of a numeric type. -/
inductive NumVal
  | int (v : Int)
  | flt (f : Flt)
deriving DecidableEq, Repr

/-- Number events of the SAX interface (detail/parse_event.hpp:20-63). -/
inductive NumEvent
  | integer (v : Int)
  | unsigned (v : Int)
  | integer64 (v : Int)
  | unsigned64 (v : Int)
  | double (d : Flt)
deriving DecidableEq, Repr

/-- `int`. -/
def i32 : IntTy := ⟨.w32, true⟩
/-- `unsigned int`. -/
def u32 : IntTy := ⟨.w32, false⟩
/-- `std::int64_t`. -/
def i64 : IntTy := ⟨.w64, true⟩
/-- `std::uint64_t`. -/
def u64 : IntTy := ⟨.w64, false⟩

/-- The events that exist: payloads lie in the range of the payload type. -/
def NumEvent.Valid : NumEvent → Prop
  | .integer v => i32.InRange v
  | .unsigned v => u32.InRange v
  | .integer64 v => i64.InRange v
  | .unsigned64 v => u64.InRange v
  | .double d => d.Fits .double

instance (e : NumEvent) : Decidable e.Valid := by
  cases e <;> unfold NumEvent.Valid <;> infer_instance

/-- `JsonNumberValueParser<T>::parse(context, V value, ref)` for integral `V`
(parse_fundamental.hpp:55-64); `none` is `false`, with `ref` not assigned. -/
def parseInt (T : NumTy) (V : IntTy) (v : Int) : Option NumVal :=
  match T with
  | .int t => if isAssignableIntInt t V v then some (.int (t.cast v)) else none
  | .flt t => if isAssignableFltInt t V v then some (.flt (Flt.castInt t v)) else none

/-- `JsonNumberValueParser<T>::parse(context, double value, ref)` (parse_fundamental.hpp:55-64 with
numeric_traits.hpp:17-19 for integral `T`). -/
def parseDouble (T : NumTy) (d : Flt) : Option NumVal :=
  match T with
  | .int _ => none
  | .flt t => if isAssignableFltFlt t .double d then some (.flt (d.round t)) else none

/-- `JsonNumberParser<T>::parse` for the number events (parse_fundamental.hpp:92-115); the overload for
number literals (117-125) is unreachable because the reader is not told to report literals
(parse.hpp:18-20). -/
def parseNumber (T : NumTy) : NumEvent → Option NumVal
  | .integer v => parseInt T i32 v
  | .unsigned v => parseInt T u32 v
  | .integer64 v => parseInt T i64 v
  | .unsigned64 v => parseInt T u64 v
  | .double d => parseDouble T d

/-- A number in the DOM (RapidJSON contract): integers between `-2^63` and `2^64-1` whatever call
created them, and doubles. -/
inductive JsonNum
  | int (v : Int)
  | dbl (d : Flt)
deriving DecidableEq, Repr

/-- Numbers that exist in a DOM. -/
def JsonNum.Valid : JsonNum → Prop
  | .int v => i64.min ≤ v ∧ v ≤ u64.max
  | .dbl d => d.Fits .double

instance (n : JsonNum) : Decidable n.Valid := by
  cases n <;> unfold JsonNum.Valid <;> infer_instance

/-- The DOM number made from a reader event. -/
def JsonNum.ofEvent : NumEvent → JsonNum
  | .integer v => .int v
  | .unsigned v => .int v
  | .integer64 v => .int v
  | .unsigned64 v => .int v
  | .double d => .dbl d

/-- `IsInt` / `IsUint` / `IsInt64` / `IsUint64` (RapidJSON contract). -/
def JsonNum.is (t : IntTy) : JsonNum → Bool
  | .int v => decide (t.InRange v)
  | .dbl _ => false

/-- `check_range<Exception, NarrowType>(integer_value)` (deserialize_fundamental.hpp:11-38). -/
def checkRange (narrow : IntTy) (v : Int) : Bool :=
  if narrow.signed then !(decide (v < narrow.min) || decide (v > narrow.max))
  else !decide (v > narrow.max)

/-- The type that the DOM is asked for: `GetInt`, `GetUint`, `GetInt64`, `GetUint64`
(deserialize_fundamental.hpp:207-271). -/
def wideType (t : IntTy) : IntTy :=
  match t.width with
  | .w64 => ⟨.w64, t.signed⟩
  | _ => ⟨.w32, t.signed⟩

/-- Why a deserializer rejects a number (the message of the exception). -/
inductive NumError
  | wrongType
  | outOfRange
deriving DecidableEq, Repr

/-- `JsonSignedIntegerDeserializer` and its three siblings (deserialize_fundamental.hpp:41-159). On
error the target is not assigned. -/
def deserializeInt (t : IntTy) (j : JsonNum) : Except NumError Int :=
  match j with
  | .int v =>
      if j.is (wideType t) then
        if checkRange t v then .ok (t.cast v) else .error .outOfRange
      else .error .wrongType
  | .dbl _ => .error .wrongType

/-- `GetDouble` (RapidJSON contract): a stored integer is converted to `double`. -/
def JsonNum.getDouble : JsonNum → Flt
  | .int v => Flt.castInt .double v
  | .dbl d => d

/-- `JsonFloatDeserializer` on a number (deserialize_fundamental.hpp:273-296): never fails. -/
def deserializeFlt (t : FltTy) (j : JsonNum) : Flt := j.getDouble.round t

/-- Deserialization of a DOM number into a numeric target. -/
def deserializeNumber (T : NumTy) (j : JsonNum) : Except NumError NumVal :=
  match T with
  | .int t => (deserializeInt t j).map .int
  | .flt t => .ok (.flt (deserializeFlt t j))

end Verif.Numeric
