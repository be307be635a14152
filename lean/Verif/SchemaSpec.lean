import Verif.Core

/-!
# What a JSON schema means

Validation of a document against a schema, following the JSON Schema specification, draft 2020-12 (core and
validation vocabularies), for the keywords `$ref`, `type`, `enum`, `minimum`, `maximum`, `prefixItems`, `items`,
`minItems`, `maxItems`, `uniqueItems`, `properties`, `additionalProperties`, `required` and `oneOf`. Other keywords
(`$schema`, `definitions`, `format`, `contentEncoding`) do not assert anything. Independent of the generator.
-/

namespace Verif.Core
open Verif.Numeric

namespace JsonSchema

/-! ## Numbers and equality -/

/-- The value as the fraction `num/2^den`; `fin neg k e` is `±(2k+1)·2^e`. -/
def fraction : JsonNum → Option (Int × Nat)
  | .int v => some (v, 0)
  | .dbl (.zero _) => some (0, 0)
  | .dbl (.fin neg k e) => some ((if neg then -(2 * k + 1 : Int) else 2 * k + 1) * 2 ^ e.toNat, (-e).toNat)
  | .dbl _ => none

/-- Comparison of numbers. -/
def numLe (a b : JsonNum) : Bool :=
  match fraction a, fraction b with
  | some (x, m), some (y, n) => decide (x * 2 ^ n ≤ y * 2 ^ m)
  | _, _ => false

/-- A number without fractional part. -/
def isInteger (a : JsonNum) : Bool :=
  match fraction a with
  | some (x, m) => decide (x % 2 ^ m = 0)
  | none => false

/-- 1.5 lies between 1 and 2, 3.0 is an integer, -0.5 is none. -/
example : numLe (.int 1) (.dbl (.fin false 1 (-1))) = true ∧ numLe (.dbl (.fin false 1 (-1))) (.int 1) = false ∧ numLe (.dbl (.fin false 1 (-1))) (.int 2) = true ∧
    isInteger (.dbl (.fin false 1 0)) = true ∧ numLe (.dbl (.fin false 1 0)) (.int 3) = true ∧ numLe (.int 3) (.dbl (.fin false 1 0)) = true ∧
    isInteger (.dbl (.fin true 0 (-1))) = false := by decide

mutual
/-- Equality of JSON values: numbers by value, objects regardless of the order of members. -/
def same : Json → Json → Bool
  | .null, .null => true
  | .bool a, .bool b => a == b
  | .num a, .num b => numLe a b && numLe b a
  | .str a, .str b => a == b
  | .arr as, .arr bs => sameAll as bs
  | .obj as, .obj bs => decide (as.length = bs.length) && sameFields as bs
  | _, _ => false

/-- Equality of arrays. -/
def sameAll : List Json → List Json → Bool
  | [], [] => true
  | a :: as, b :: bs => same a b && sameAll as bs
  | _, _ => false

/-- All members occur in the other object. -/
def sameFields : List (Str × Json) → List (Str × Json) → Bool
  | [], _ => true
  | (k, a) :: as, bs => (match bs.lookup k with | some b => same a b | none => false) && sameFields as bs
end

/-- No two elements are equal. -/
def distinct : List Json → Bool
  | [] => true
  | j :: js => js.all (fun j' => !same j j') && distinct js

/-! ## Truth values -/

/-- Conjunction of truth values, `none` is unknown. -/
def and3 : Option Bool → Option Bool → Option Bool
  | some false, _ => some false
  | _, some false => some false
  | some true, b => b
  | none, _ => none

/-- Conjunction of a list. -/
def all3 : List (Option Bool) → Option Bool
  | [] => some true
  | a :: as => and3 a (all3 as)

/-- The number of true elements. -/
def count3 : List (Option Bool) → Option Nat
  | [] => some 0
  | a :: as =>
      match a, count3 as with
      | some true, some n => some (n + 1)
      | some false, some n => some n
      | _, _ => none

/-! ## References -/

/-- Split at slashes. -/
def splitSlash : Str → List Str
  | [] => [[]]
  | c :: s =>
      if c = 47 then [] :: splitSlash s
      else
        match splitSlash s with
        | seg :: segs => (c :: seg) :: segs
        | [] => [[c]]

/-- `~1` is a slash, `~0` a tilde (RFC 6901). -/
def unescape : Str → Str
  | 126 :: 49 :: s => 47 :: unescape s
  | 126 :: 48 :: s => 126 :: unescape s
  | c :: s => c :: unescape s
  | [] => []

/-- Walk along a path of keys (arrays are not needed here). -/
def walk : Json → List Str → Option Json
  | j, [] => some j
  | .obj ms, k :: ks =>
      match ms.lookup (unescape k) with
      | some j => walk j ks
      | none => none
  | _, _ :: _ => none

/-- The schema to which `$ref` refers: `#` for the document, followed by a JSON pointer. -/
def resolve (root : Json) (r : Str) : Option Json :=
  match r with
  | [35] => some root
  | 35 :: 47 :: s => walk root (splitSlash s)
  | _ => none

/-! ## Keywords -/

/-- `type` -/
def typeOk (type : Str) : Json → Bool
  | .null => type == lit "null"
  | .bool _ => type == lit "boolean"
  | .num n => type == lit "number" || (type == lit "integer" && isInteger n)
  | .str _ => type == lit "string"
  | .arr _ => type == lit "array"
  | .obj _ => type == lit "object"

/-- A validator for the documents of subschemas. -/
abbrev VFn := Json → Json → Option Bool

/-- `$ref` -/
def checkRef (root : Json) (v : VFn) (kw : List (Str × Json)) (doc : Json) : Option Bool :=
  match kw.lookup (lit "$ref") with
  | some (.str r) => (match resolve root r with | some s => v s doc | none => some false)
  | _ => some true

/-- `type` -/
def checkType (kw : List (Str × Json)) (doc : Json) : Option Bool :=
  match kw.lookup (lit "type") with
  | some (.str t) => some (typeOk t doc)
  | _ => some true

/-- `enum` -/
def checkEnum (kw : List (Str × Json)) (doc : Json) : Option Bool :=
  match kw.lookup (lit "enum") with
  | some (.arr vs) => some (vs.any (same doc))
  | _ => some true

/-- `minimum` -/
def checkMin (kw : List (Str × Json)) (doc : Json) : Option Bool :=
  match kw.lookup (lit "minimum"), doc with
  | some (.num b), .num n => some (numLe b n)
  | _, _ => some true

/-- `maximum` -/
def checkMax (kw : List (Str × Json)) (doc : Json) : Option Bool :=
  match kw.lookup (lit "maximum"), doc with
  | some (.num b), .num n => some (numLe n b)
  | _, _ => some true

/-- `prefixItems`: a schema for each of the first elements. -/
def checkPrefix (v : VFn) (kw : List (Str × Json)) (doc : Json) : Option Bool :=
  match kw.lookup (lit "prefixItems"), doc with
  | some (.arr ss), .arr js => all3 (List.zipWith v ss js)
  | _, _ => some true

/-- `items`: the schema for all elements after those of `prefixItems`. -/
def checkItems (v : VFn) (kw : List (Str × Json)) (doc : Json) : Option Bool :=
  match kw.lookup (lit "items"), doc with
  | some s, .arr js =>
      all3 ((js.drop (match kw.lookup (lit "prefixItems") with | some (.arr ss) => ss.length | _ => 0)).map (v s))
  | _, _ => some true

/-- `uniqueItems` -/
def checkUnique (kw : List (Str × Json)) (doc : Json) : Option Bool :=
  match kw.lookup (lit "uniqueItems"), doc with
  | some (.bool true), .arr js => some (distinct js)
  | _, _ => some true

/-- `minItems` -/
def checkMinItems (kw : List (Str × Json)) (doc : Json) : Option Bool :=
  match kw.lookup (lit "minItems"), doc with
  | some (.num b), .arr js => some (numLe b (.int js.length))
  | _, _ => some true

/-- `maxItems` -/
def checkMaxItems (kw : List (Str × Json)) (doc : Json) : Option Bool :=
  match kw.lookup (lit "maxItems"), doc with
  | some (.num b), .arr js => some (numLe (.int js.length) b)
  | _, _ => some true

/-- The properties of a schema. -/
def propertiesOf (kw : List (Str × Json)) : List (Str × Json) :=
  match kw.lookup (lit "properties") with
  | some (.obj ps) => ps
  | _ => []

/-- `properties`: a schema for each of the named members that are there. -/
def checkProperties (v : VFn) (kw : List (Str × Json)) (doc : Json) : Option Bool :=
  match doc with
  | .obj ms => all3 (ms.map fun (k, j) => match (propertiesOf kw).lookup k with | some s => v s j | none => some true)
  | _ => some true

/-- `additionalProperties`: the schema for all other members. -/
def checkAdditional (v : VFn) (kw : List (Str × Json)) (doc : Json) : Option Bool :=
  match kw.lookup (lit "additionalProperties"), doc with
  | some s, .obj ms => all3 (ms.map fun (k, j) => match (propertiesOf kw).lookup k with | some _ => some true | none => v s j)
  | _, _ => some true

/-- `required` -/
def checkRequired (kw : List (Str × Json)) (doc : Json) : Option Bool :=
  match kw.lookup (lit "required"), doc with
  | some (.arr rs), .obj ms => some (rs.all fun r => match r with | .str k => (ms.lookup k).isSome | _ => false)
  | _, _ => some true

/-- `oneOf` -/
def checkOneOf (v : VFn) (kw : List (Str × Json)) (doc : Json) : Option Bool :=
  match kw.lookup (lit "oneOf") with
  | some (.arr ss) => (count3 (ss.map fun s => v s doc)).map (· == 1)
  | _ => some true

/-- The document satisfies the schema, as far as can be said with `fuel` nested schemas. -/
def validate (root : Json) : Nat → VFn
  | 0, _, _ => none
  | _ + 1, .bool b, _ => some b
  | fuel + 1, .obj kw, doc =>
      let v := validate root fuel
      all3 [checkRef root v kw doc, checkType kw doc, checkEnum kw doc, checkMin kw doc, checkMax kw doc, checkPrefix v kw doc, checkItems v kw doc,
        checkUnique kw doc, checkMinItems kw doc, checkMaxItems kw doc, checkProperties v kw doc, checkAdditional v kw doc, checkRequired kw doc,
        checkOneOf v kw doc]
  | _ + 1, _, _ => some false

/-- The subschema accepts or rejects the document. -/
def Verdict (root schema doc : Json) (b : Bool) : Prop := ∃ n, ∀ fuel, n ≤ fuel → validate root fuel schema doc = some b

/-- `j` occurs in a document. -/
inductive Sub (j : Json) : Json → Prop
  | self : Sub j j
  | element (js : List Json) (x : Json) : x ∈ js → Sub j x → Sub j (.arr js)
  | member (ms : List (Str × Json)) (k : Str) (x : Json) : (k, x) ∈ ms → Sub j x → Sub j (.obj ms)

end JsonSchema

/-- The document is valid against the schema document. -/
def ValidAgainst (schema doc : Json) : Prop := JsonSchema.Verdict schema schema doc true

/-- The document is not valid against the schema document. -/
def InvalidAgainst (schema doc : Json) : Prop := JsonSchema.Verdict schema schema doc false

end Verif.Core
