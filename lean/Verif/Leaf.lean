import Verif.Path

/-!
# Types without components

Serialization and deserialization of `Prim`: serialize_fundamental.hpp, serialize_string.hpp,
serialize_bytes.hpp, serialize_datetime.hpp, serialize_date.hpp, serialize_enum.hpp and their
deserialize_*.hpp counterparts.
-/

namespace Verif.Core
open Verif.Numeric Verif.EnumConv

/-- Outcome of serializing a leaf. -/
inductive LeafSer
  | ub
  | fail
  | ok (j : Json)

/-- The `JsonSerializer` of a type without components: `nullptr_t`, `bool` (serialize_fundamental.hpp:8-26),
integers (28-118), floating-point numbers, which must be finite (120-143), strings (serialize_string.hpp),
bytes (serialize_bytes.hpp:15-24, `base64_encode` never fails), time stamps (serialize_datetime.hpp:13-18),
dates (serialize_date.hpp:16-21; overflow of the tick count is undefined), enumerations
(serialize_enum.hpp:15-34). A value of another type does not occur (`ub`).

The `JsonWriter` of the same types writes the same value (write_fundamental.hpp, write_string.hpp,
write_bytes.hpp:12-20, write_datetime.hpp:10-15, write_date.hpp:13-18, write_enum.hpp:15-34). -/
def serPrim (env : Env) : Prim → PVal → LeafSer
  | .null, .null => .ok .null
  | .bool, .bool b => .ok (.bool b)
  | .int _, .int v => .ok (.num (.int v))
  | .flt _, .flt f => if f.isFinite then .ok (.num (.dbl f)) else .fail
  | .str, .str s => .ok (.str s)
  | .bytes, .bytes s => .ok (.str (Base64.encode env.endian env.foreign s))
  | .time, .time t => .ok (.str (DateTime.toIsoDatetime env.junk env.clk t))
  | .date, .date y m d =>
      match DateTime.formatDate env.junk env.clk y m d with
      | some s => .ok (.str s)
      | none => .ub
  | .enumInt _, .int v => .ok (.num (.int v))
  | .enumStr table, .int v => .ok (.str (enumName table v))
  | _, _ => .ub

theorem serPrim_flt (env : Env) (t : FltTy) (f : Flt) :
    serPrim env (.flt t) (.flt f) = if f.isFinite then .ok (.num (.dbl f)) else .fail := rfl

theorem serPrim_date (env : Env) (y : Int) (m d : Nat) :
    serPrim env .date (.date y m d) =
      match DateTime.formatDate env.junk env.clk y m d with
      | some s => .ok (.str s)
      | none => .ub := rfl

theorem serPrim_time (env : Env) (t : Int) :
    serPrim env .time (.time t) = .ok (.str (DateTime.toIsoDatetime env.junk env.clk t)) := rfl

theorem serPrim_bytes (env : Env) (s : Str) :
    serPrim env .bytes (.bytes s) = .ok (.str (Base64.encode env.endian env.foreign s)) := rfl

theorem serPrim_enumStr (env : Env) (table : Table) (v : Int) :
    serPrim env (.enumStr table) (.int v) = .ok (.str (enumName table v)) := rfl

/-- Reasons of a `JsonDeserializationError`, with what their texts mention (`Err.text` in `Message`). `expectedInt`
carries the type that the DOM was asked for (deserialize_fundamental.hpp:53, 83, 113, 143), `outOfRange` tells
signed types (18) from unsigned ones (29). -/
inductive Err
  | expectedNull | expectedBool | expectedInt (wide : IntTy) | expectedNumber | expectedString | expectedArray | expectedObject
  | outOfRange (signed : Bool)
  | badBase64 | badDatetime (got : Str) | badDate (got : Str)
  | unknownEnumerator (got : Str)
  | sizeMismatch (expected got : Nat)
  | missing (name : Str)
  | noAlternative
deriving DecidableEq, Repr

/-- Outcome of deserializing a leaf. -/
inductive LeafDes
  | ub
  | reject (e : Err)
  | ok (p : PVal)
deriving DecidableEq, Repr

/-- Reading an integer type (deserialize_fundamental.hpp:41-159). -/
def desInt (t : IntTy) : Json → LeafDes
  | .num n =>
      match deserializeInt t n with
      | .ok v => .ok (.int v)
      | .error .wrongType => .reject (.expectedInt (wideType t))
      | .error .outOfRange => .reject (.outOfRange t.signed)
  | _ => .reject (.expectedInt (wideType t))

/-- The `JsonDeserializer` of a type without components: `nullptr_t` (deserialize_fundamental.hpp:166-181),
`bool` (189-204), integers (41-159), floating-point numbers (280-295), strings (deserialize_string.hpp:14-22),
bytes (deserialize_bytes.hpp:15-33), time stamps (deserialize_datetime.hpp:15-33), dates
(deserialize_date.hpp:18-38), enumerations (deserialize_enum.hpp:18-29, 38-61). The outcome `reject` is an
exception or `false`, depending on the template argument `Exception`. -/
def desPrim (env : Env) : Prim → Json → LeafDes
  | .null, j => match j with | .null => .ok .null | _ => .reject .expectedNull
  | .bool, j => match j with | .bool b => .ok (.bool b) | _ => .reject .expectedBool
  | .int t, j => desInt t j
  | .flt t, j => match j with | .num n => .ok (.flt (deserializeFlt t n)) | _ => .reject .expectedNumber
  | .str, j => match j with | .str s => .ok (.str s) | _ => .reject .expectedString
  | .bytes, j =>
      match j with
      | .str s => (match Base64.decode s with | some bs => .ok (.bytes bs) | none => .reject .badBase64)
      | _ => .reject .expectedString
  | .time, j =>
      match j with
      | .str s =>
          (match DateTime.parseDatetime env.clk s with
          | .ok t => .ok (.time t)
          | .rejected => .reject (.badDatetime s)
          | .overflow => .ub)
      | _ => .reject .expectedString
  | .date, j =>
      match j with
      | .str s =>
          (match DateTime.readDate env.clk s with
          | .ok y m d => .ok (.date y m d)
          | .rejected => .reject (.badDate s)
          | .overflow => .ub)
      | _ => .reject .expectedString
  | .enumInt t, j => desInt t j
  | .enumStr table, j =>
      match j with
      | .str s => (match enumValue table s with | some v => .ok (.int v) | none => .reject (.unknownEnumerator s))
      | _ => .reject .expectedString

theorem desPrim_time (env : Env) (s : Str) : desPrim env .time (.str s) =
    match DateTime.parseDatetime env.clk s with
    | .ok t => .ok (.time t)
    | .rejected => .reject (.badDatetime s)
    | .overflow => .ub := rfl

theorem desPrim_date (env : Env) (s : Str) : desPrim env .date (.str s) =
    match DateTime.readDate env.clk s with
    | .ok y m d => .ok (.date y m d)
    | .rejected => .reject (.badDate s)
    | .overflow => .ub := rfl

theorem desPrim_bytes (env : Env) (s : Str) : desPrim env .bytes (.str s) =
    match Base64.decode s with
    | some bs => .ok (.bytes bs)
    | none => .reject .badBase64 := rfl

theorem desPrim_enumStr (env : Env) (table : Table) (s : Str) : desPrim env (.enumStr table) (.str s) =
    match enumValue table s with
    | some v => .ok (.int v)
    | none => .reject (.unknownEnumerator s) := rfl

theorem desPrim_flt (env : Env) (t : FltTy) (n : JsonNum) :
    desPrim env (.flt t) (.num n) = .ok (.flt (deserializeFlt t n)) := rfl

/-- What is left in the target when a leaf is rejected: only `base64_decode` touches its output before it
fails (base64.hpp:243-321); all other readers assign on success only. -/
def spoil (p : Prim) (j : Json) (target : Val) : Val :=
  match p, j with
  | .bytes, .str s => .prim (.bytes (Base64.decodeOut s))
  | _, _ => target

end Verif.Core
