import Verif.TextLemmas
import Verif.Parse
import Verif.Deserialize

/-!
# Functions that read and write strings

write.hpp, parse.hpp, deserialize.hpp and utility.hpp on the level of `std::string`.
-/

namespace Verif.Text
open Verif.Core Verif.Numeric

/-- `rapidjson::Reader` and `rapidjson::Document` on a text that ends at the first NUL character (RapidJSON contract): the text is
accepted iff it is a JSON text, and then the events are those of the document. -/
structure Reader (C : NumConv) where
  read : Str → Feed
  accepts : ∀ w j, read w = .document j ↔ Denotes C j w

/-- What `rapidjson::StringStream stream(str.data())`, `doc.Parse(str.data())` and `doc.ParseInsitu(str.data())` read
(parse.hpp:16, deserialize.hpp:73, 90, 104, 117, utility.hpp:28, 38): **the string up to its first NUL character**; `data()`
ends with a NUL character that is not part of the string. -/
def Reader.readString {C : NumConv} (R : Reader C) (s : Str) : Feed := R.read (cstr s)

/-- `bool write_to_string(const T& obj, std::string& str)` (write.hpp:41-53): the returned value and `str` afterwards. -/
def writeText (C : NumConv) (env : Env) (t : Ty) (v : Val) (before : Str) : Option (Bool × Str) :=
  match wr env v t [] [] with
  | .ub => none
  | .done _ true es => some (true, writerText C es [])
  | .done _ false _ => some (false, before)

/-- `bool parse(const std::string& str, T& value)` (parse.hpp:11-31). -/
def parseText {C : NumConv} (R : Reader C) (env : Env) (host : Host) (t : Ty) (s : Str) (target : Val) (n : Nat) : ParseBool :=
  parseBool env host t (R.readString s) target n

/-- `T parse(const std::string& str)` (parse.hpp:33-50). -/
def parseTextThrow {C : NumConv} (R : Reader C) (env : Env) (host : Host) (t : Ty) (s : Str) (n : Nat) : ParseThrow :=
  parseThrow env host t (R.readString s) n

/-- `bool deserialize(const std::string& str, T& obj)` (deserialize.hpp:69-76) and the overload for `std::string&&` (86-93), which
destroys the contents of its argument but is otherwise the same. -/
def deserText {C : NumConv} (R : Reader C) (env : Env) (t : Ty) (s : Str) (target : Val) (next : Nat) : Option (Bool × Val) :=
  match R.readString s with
  | .document j => deserializeBool env t j target next
  | .broken _ => some (false, target)

/-- Outcome of the variants that throw: a `JsonParseError`, or what follows when there is none. -/
inductive TextThrown
  | parseError
  | parsed (r : Thrown)

/-- `T deserialize(const std::string& str)` (deserialize.hpp:98-106, 46-59) and the overload for `std::string&&` (111-119). -/
def deserTextThrow {C : NumConv} (R : Reader C) (env : Env) (t : Ty) (s : Str) (next : Nat) : TextThrown :=
  match R.readString s with
  | .document j => .parsed (deserializeThrow env t j next)
  | .broken _ => .parseError

/-! ## Documents and the memory of their strings -/

/-- Where the characters of a string in a `rapidjson::Document` are: in memory of the document, or in the buffer that was parsed. -/
inductive Home
  | own
  | argument
deriving DecidableEq

/-- A `rapidjson::Document` with the places of its strings and keys. -/
inductive Dom
  | null
  | bool (b : Bool)
  | num (n : JsonNum)
  | str (s : Str) (h : Home)
  | arr (ds : List Dom)
  | obj (ms : List (Str × Home × Dom))

mutual
/-- The document with all strings in the same place. -/
def Dom.of (h : Home) : Json → Dom
  | .null => .null
  | .bool b => .bool b
  | .num n => .num n
  | .str s => .str s h
  | .arr js => .arr (Dom.ofAll h js)
  | .obj ms => .obj (Dom.ofFields h ms)

/-- `Dom.of` for elements. -/
def Dom.ofAll (h : Home) : List Json → List Dom
  | [] => []
  | j :: js => Dom.of h j :: Dom.ofAll h js

/-- `Dom.of` for members. -/
def Dom.ofFields (h : Home) : List (Str × Json) → List (Str × Home × Dom)
  | [] => []
  | (k, j) :: ms => (k, h, Dom.of h j) :: Dom.ofFields h ms
end

/-- `string_to_document` (utility.hpp:25-30): `Parse` copies strings into memory of the document. `none` is a document with a
parse error. -/
def stringToDocument {C : NumConv} (R : Reader C) (s : Str) : Option Dom :=
  match R.readString s with
  | .document j => some (Dom.of .own j)
  | .broken _ => none

/-- `string_to_document` for `std::string&&` (utility.hpp:35-40): `ParseInsitu` decodes strings in the buffer that is parsed, and the
document refers to them there. -/
def stringToDocumentMove {C : NumConv} (R : Reader C) (s : Str) : Option Dom :=
  match R.readString s with
  | .document j => some (Dom.of .argument j)
  | .broken _ => none

mutual
/-- What is seen by going through the whole document; `live` tells whether the argument of `string_to_document` still exists
unchanged. `none` is an access to memory that is gone. -/
def Dom.view (live : Bool) : Dom → Option Json
  | .null => some .null
  | .bool b => some (.bool b)
  | .num n => some (.num n)
  | .str s h => if h = .own ∨ live = true then some (.str s) else none
  | .arr ds => (Dom.viewAll live ds).map .arr
  | .obj ms => (Dom.viewFields live ms).map .obj

/-- `Dom.view` for elements. -/
def Dom.viewAll (live : Bool) : List Dom → Option (List Json)
  | [] => some []
  | d :: ds =>
      match Dom.view live d, Dom.viewAll live ds with
      | some j, some js => some (j :: js)
      | _, _ => none

/-- `Dom.view` for members. -/
def Dom.viewFields (live : Bool) : List (Str × Home × Dom) → Option (List (Str × Json))
  | [] => some []
  | (k, h, d) :: ms =>
      match Dom.view live d, Dom.viewFields live ms with
      | some j, some js => if h = .own ∨ live = true then some ((k, j) :: js) else none
      | _, _ => none
end

mutual
/-- There is no string and no key in the document. -/
def textFree : Json → Bool
  | .str _ => false
  | .arr js => textFreeAll js
  | .obj ms => match ms with | [] => true | _ :: _ => false
  | _ => true

/-- `textFree` for lists. -/
def textFreeAll : List Json → Bool
  | [] => true
  | j :: js => textFree j && textFreeAll js
end

mutual
theorem view_ok (h : Home) (live : Bool) (hh : h = .own ∨ live = true) : ∀ j, (Dom.of h j).view live = some j
  | .null => rfl
  | .bool _ => rfl
  | .num _ => rfl
  | .str s => by simp [Dom.of, Dom.view, hh]
  | .arr js => by simp [Dom.of, Dom.view, viewAll_ok h live hh js]
  | .obj ms => by simp [Dom.of, Dom.view, viewFields_ok h live hh ms]

theorem viewAll_ok (h : Home) (live : Bool) (hh : h = .own ∨ live = true) : ∀ js, Dom.viewAll live (Dom.ofAll h js) = some js
  | [] => rfl
  | j :: js => by simp [Dom.ofAll, Dom.viewAll, view_ok h live hh j, viewAll_ok h live hh js]

theorem viewFields_ok (h : Home) (live : Bool) (hh : h = .own ∨ live = true) : ∀ ms, Dom.viewFields live (Dom.ofFields h ms) = some ms
  | [] => rfl
  | (k, j) :: ms => by simp [Dom.ofFields, Dom.viewFields, view_ok h live hh j, viewFields_ok h live hh ms, hh]
end

mutual
theorem view_gone : ∀ j, (Dom.of .argument j).view false = if textFree j then some j else none
  | .null => rfl
  | .bool _ => rfl
  | .num _ => rfl
  | .str s => by simp [Dom.of, Dom.view, textFree]
  | .arr js => by
    simp only [Dom.of, Dom.view, viewAll_gone js, textFree]
    by_cases h : textFreeAll js = true <;> simp [h]
  | .obj ms => by
    cases ms with
    | nil => rfl
    | cons m ms =>
      simp only [Dom.of, Dom.ofFields, Dom.view, Dom.viewFields, textFree]
      split <;> simp_all

theorem viewAll_gone : ∀ js, Dom.viewAll false (Dom.ofAll .argument js) = if textFreeAll js then some js else none
  | [] => rfl
  | j :: js => by
    simp only [Dom.ofAll, Dom.viewAll, view_gone j, viewAll_gone js, textFreeAll]
    by_cases h : textFree j = true <;> by_cases h' : textFreeAll js = true <;> simp [h, h']
end

end Verif.Text
