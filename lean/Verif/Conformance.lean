import Verif.Reader
import Verif.Schema
import Verif.PolyStack

/-!
# The project's test suite, run on the model

The expectations of /repo/test are evaluated in the model, starting from the same texts. They say nothing about all inputs;
they are evidence that the model behaves like the code. Not included: measurements of time, Boost.Describe, offsets of
syntax errors (the offset is found by RapidJSON), raw pointers and string literals (in the model these are unique pointers and
strings).
-/

namespace Verif.Conformance
open Verif.Core Verif.Numeric Verif.Text Verif.EnumConv

/-! ## Conversion of numbers -/

/-- Sign, digits without the point, and decimal exponent of the text of a number. -/
def decimalParts (s : Str) : Bool × Nat × Int :=
  let neg := s.head? = some 45
  let b := if neg then s.tail else s
  let i := b.takeWhile isDigit
  let r := b.dropWhile isDigit
  let fr := if r.head? = some 46 then r.tail.takeWhile isDigit else []
  let ex := (if r.head? = some 46 then r.tail.dropWhile isDigit else r).tail
  let e : Int := if ex.head? = some 45 then -(digitsValue ex.tail : Int) else digitsValue (dropSign ex)
  (neg, digitsValue (i ++ fr), e - fr.length)

/-- The nearest `double`; none when the number is too big. -/
def nearest (s : Str) : Option Flt :=
  let (neg, m, e) := decimalParts s
  if m = 0 then some (.zero neg)
  else
    let f := if 0 ≤ e then roundPos .double neg (m * 10 ^ e.toNat) 0
      else
        let d := 10 ^ (-e).toNat
        let k := bitLen d + 64
        roundPos .double neg (2 * (m * 2 ^ k / d) + (if m * 2 ^ k % d = 0 then 0 else 1)) (-(k + 1 : Nat))
    if f.isFinite then some f else none

/-- A decimal fraction: digits, of which the last `k` are behind the point. -/
def pointText (m k : Nat) : Str :=
  let ds := decimal m
  let ds := List.replicate (k + 1 - ds.length) 48 ++ ds
  ds.take (ds.length - k) ++ 46 :: (if k = 0 then [48] else ds.drop (ds.length - k))

/-- The exact decimal expansion (the same as the shortest one, which RapidJSON writes, for the numbers in the tests). -/
def expansion : Flt → Str
  | .fin neg k e =>
      minus neg ++ (if 0 ≤ e then pointText ((2 * k + 1) * 2 ^ e.toNat) 0 else pointText ((2 * k + 1) * 5 ^ (-e).toNat) (-e).toNat)
  | .zero neg => minus neg ++ lit "0.0"
  | _ => []

/-- The conversions used by the tests. -/
def conv : NumConv := ⟨expansion, nearest⟩

/-! ## Classes and types of the tests -/

/-- A text of the tests, in UTF-8. -/
def u8 (s : String) : Str := s.toList.flatMap fun c => utf8 c.toNat

abbrev int (w : Width) : Ty := .prim (.int ⟨w, true⟩)
abbrev uint (w : Width) : Ty := .prim (.int ⟨w, false⟩)
abbrev tInt : Ty := int .w32
abbrev tFloat : Ty := .prim (.flt .float)
abbrev tDouble : Ty := .prim (.flt .double)
abbrev tString : Ty := .prim .str
abbrev tBytes : Ty := .prim .bytes
abbrev tTime : Ty := .prim .time
abbrev tDate : Ty := .prim .date

/-- The classes of test/example_classes.hpp. -/
def classes : Nat → Class
  | 0 => ⟨lit "TestValue", [⟨lit "value", .required, tString⟩]⟩
  | 1 => ⟨lit "TestDefault", [⟨lit "value", .default, tString⟩]⟩
  | 2 => ⟨lit "TestDerived", [⟨lit "value", .required, tString⟩, ⟨lit "member", .required, tString⟩]⟩
  | 3 => ⟨lit "TestNonCopyable", [⟨lit "member", .required, .cls 0⟩]⟩
  | 4 => ⟨lit "TestPair", [⟨lit "first", .required, tInt⟩, ⟨lit "second", .required, tInt⟩]⟩
  | 5 => ⟨lit "TestDataTransferSubObject", [⟨lit "member_value", .required, tString⟩]⟩
  | 6 => ⟨lit "TestDataTransferObject", [⟨lit "bool_value", .required, .prim .bool⟩, ⟨lit "bool_list", .required, .vec (.prim .bool)⟩,
      ⟨lit "int_value", .required, tInt⟩, ⟨lit "int_list", .required, .vec tInt⟩, ⟨lit "string_value", .required, tString⟩,
      ⟨lit "string_list", .required, .vec tString⟩, ⟨lit "object_value", .required, .cls 5⟩, ⟨lit "object_list", .required, .vec (.cls 5)⟩]⟩
  | 7 => ⟨lit "TestOptionalObjectMember", [⟨lit "optional_value", .optional, tInt⟩]⟩
  | 8 => ⟨lit "TestBackReferenceArray", [⟨lit "values", .required, .vec (.sptr (.cls 0))⟩]⟩
  | 9 => ⟨lit "TestBackReferenceObject", [⟨lit "outer", .required, .sptr (.cls 0)⟩, ⟨lit "inner", .required, .vec (.sptr (.cls 0))⟩]⟩
  | 10 => ⟨lit "UserDefinedType", [⟨lit "value", .required, tString⟩]⟩
  | 11 => ⟨lit "Example", [⟨lit "bool_value", .required, .prim .bool⟩, ⟨lit "string_value", .required, tString⟩,
      ⟨lit "string_list", .required, .vec tString⟩, ⟨lit "optional_value", .optional, tInt⟩, ⟨lit "custom_value", .required, .cls 10⟩]⟩
  | _ => ⟨lit "Derived", [⟨lit "base_member", .required, tString⟩, ⟨lit "derived_member", .required, tString⟩]⟩

/-- A string value. -/
def vs (s : String) : Val := .prim (.str (u8 s))
/-- An integer value. -/
def vi (v : Int) : Val := .prim (.int v)
/-- A floating-point value of the given type. -/
def vf (t : FltTy) (s : String) : Val := .prim (.flt (((nearest (lit s)).getD .nan).round t))

/-- What the default constructors leave in the classes of the tests. -/
def defaultObject : Nat → Val
  | 0 => .obj [vs ""]
  | 1 => .obj [vs "default"]
  | 2 => .obj [vs "", vs ""]
  | 3 => .obj [.obj [vs ""]]
  | 4 => .obj [vi 1, vi 2]
  | 5 => .obj [vs ""]
  | 6 => .obj [.prim (.bool false), .seq [], vi 0, .seq [], vs "", .seq [], .obj [vs ""], .seq []]
  | 7 => .obj [.absent]
  | 8 => .obj [.seq []]
  | 9 => .obj [.nullptr, .seq []]
  | 10 => .obj [vs ""]
  | 11 => .obj [.prim (.bool false), vs "", .seq [], .absent, .obj [vs ""]]
  | _ => .obj [vs "base", vs "derived"]

/-- What the default constructors leave in the types without components. -/
def defaultPrim : Prim → PVal
  | .null => .null
  | .bool => .bool false
  | .int _ => .int 0
  | .flt _ => .flt (.zero false)
  | .str => .str []
  | .bytes => .bytes []
  | .time => .time 0
  | .date => .date 0 0 0
  | .enumInt _ => .int 0
  | .enumStr _ => .int 0

mutual
/-- A value after default initialisation (zero where C++ leaves the value open). -/
def defaultVal : Ty → Val
  | .prim p => .prim (defaultPrim p)
  | .vec _ => .seq []
  | .arr n t => .tup (List.replicate n (defaultVal t))
  | .set _ => .set []
  | .map _ _ => .map []
  | .dict _ => .dict []
  | .tuple ts => .tup (defaultVals ts)
  | .variant ts => .alt 0 (defaultFirst ts)
  | .cls c => defaultObject c
  | .uptr _ => .nullptr
  | .sptr _ => .nullptr

/-- `defaultVal` for lists. -/
def defaultVals : List Ty → List Val
  | [] => []
  | t :: ts => defaultVal t :: defaultVals ts

/-- `defaultVal` of the first type. -/
def defaultFirst : List Ty → Val
  | [] => .nullptr
  | t :: _ => defaultVal t
end

/-- `<` of floating-point numbers, as far as the tests need it: positive numbers. -/
def fltLess : Flt → Flt → Bool
  | .fin _ k e, .fin _ k' e' => dyadicLe (2 * k + 1) e (2 * k' + 1) e' && !dyadicLe (2 * k' + 1) e' (2 * k + 1) e
  | _, _ => false

/-- `std::less` for the sets of the tests: numbers, strings, `TestValue`, `TestDefault`. -/
def less : Val → Val → Bool
  | .prim (.int a), .prim (.int b) => decide (a < b)
  | .prim (.flt a), .prim (.flt b) => fltLess a b
  | .prim (.str a), .prim (.str b) => strLess a b
  | .obj [.prim (.str a)], .obj [.prim (.str b)] => strLess a b
  | _, _ => false

/-- The program of the tests: `std::chrono::system_clock` counts nanoseconds. -/
def env : Env where
  classes := classes
  endian := .little
  foreign := fun _ => 0
  junk := fun _ => []
  clk := 1000000000
  order := fun _ ks => ks
  less := less
  fresh := defaultVal
  ctor := defaultVal
  fragment := fun _ => none

/-- A host with handlers of 40 bytes. -/
def host : Host where
  size := fun _ => 40
  align := fun _ => 8
  charSigned := true
  table := fun c => match PerfectHash.build true ((env.members c).map (·.name)) 100 with | .ok t => t | _ => ⟨[], []⟩

/-- The reader. -/
abbrev R : Reader conv := plainReader conv

mutual
/-- Equality of values as in the tests: pointers are compared by what they point to. -/
def same : Val → Val → Bool
  | .prim p, .prim q => decide (p = q)
  | .seq vs, .seq ws => sames vs ws
  | .tup vs, .tup ws => sames vs ws
  | .set vs, .set ws => sames vs ws
  | .map vs, .map ws => sameEntries vs ws
  | .dict vs, .dict ws => sameEntries vs ws
  | .alt i v, .alt k w => decide (i = k) && same v w
  | .obj vs, .obj ws => sames vs ws
  | .absent, .absent => true
  | .present v, .present w => same v w
  | .nullptr, .nullptr => true
  | .uptr v, .uptr w => same v w
  | .sptr _ v, .sptr _ w => same v w
  | _, _ => false

/-- `same` for lists. -/
def sames : List Val → List Val → Bool
  | [], [] => true
  | v :: vs, w :: ws => same v w && sames vs ws
  | _, _ => false

/-- `same` for entries. -/
def sameEntries : List (Str × Val) → List (Str × Val) → Bool
  | [], [] => true
  | v :: vs, w :: ws => decide (v.1 = w.1) && same v.2 w.2 && sameEntries vs ws
  | _, _ => false
end

/-- The part of `test_deserialize` about deserialization (test/test_deserialize.hpp:19-45). -/
def readsDom (t : Ty) (s : Str) (v : Val) : Bool :=
  (match deserText R env t s (defaultVal t) 0 with
    | some (true, w) => same w v
    | _ => false) &&
  (match deserTextThrow R env t s 0 with
    | .parsed (.returned w) => same w v
    | _ => false)

/-- `test_deserialize(str, ref_obj)` (test/test_deserialize.hpp:16-68). -/
def reads (t : Ty) (s : Str) (v : Val) : Bool :=
  readsDom t s v &&
  (match parseText R env host t s (defaultVal t) 0 with
    | .accepted w => same w v
    | _ => false) &&
  (match parseTextThrow R env host t s 0 with
    | .returned w => same w v
    | _ => false)

/-- `test_no_deserialize<T>(str)` (test/test_deserialize.hpp:78-101). -/
def refuses (t : Ty) (s : Str) : Bool :=
  (match deserText R env t s (defaultVal t) 0 with
    | some (false, w) =>
        (match parseText R env host t s w 0 with
          | .rejected => true
          | _ => false)
    | _ => false) &&
  (match deserTextThrow R env t s 0 with
    | .parsed (.threw _ _) => true
    | _ => false) &&
  (match parseTextThrow R env host t s 0 with
    | .parseError => true
    | _ => false)

/-- `test_serialize(obj, ref_json)` (test/test_serialize.hpp:16-45). -/
def writes (t : Ty) (v : Val) (s : Str) : Bool :=
  (match serializeToDocument env t v with
    | some (some j) => decide (documentToString conv j = s)
    | _ => false) &&
  (match writeText conv env t v [] with
    | some (true, w) => decide (w = s)
    | _ => false)

end Verif.Conformance
