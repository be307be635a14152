import Verif.Parse
import Verif.Containers

/-!
# What a document means for the streaming parser

`meaning env j t target n`: the document `j` read as a `T` into a variable that holds `target`, by recursion
over the document. Containers are added to, members are assigned in the order of the document, members that
are not in the document keep their value. It does not refer to events, handlers or the stack, and it covers
enumerations with names and character types everywhere.
-/

namespace Verif.Core
open Verif.Numeric Verif.EnumConv

/-- Undefined (overflow of the clock), not a document of the type, or a value (with the next unused address). -/
inductive Means (α : Type)
  | ub
  | no
  | yes (v : α) (n : Nat)

/-- Apply a function to the value. -/
def Means.map {α β : Type} (f : α → β) : Means α → Means β
  | .ub => .ub
  | .no => .no
  | .yes v n => .yes (f v) n

/-- First the one, then the other. -/
def Means.bind {α β : Type} (m : Means α) (k : α → Nat → Means β) : Means β :=
  match m with
  | .ub => .ub
  | .no => .no
  | .yes v n => k v n

/-- A number as a floating-point value: integers below `2^digits` in magnitude; doubles rounded, if they lie in
the range of the type. -/
def floatMeaning (t : FltTy) : JsonNum → Option Flt
  | .int v => if v.natAbs < 2 ^ t.digits then some (Flt.ofInt v) else none
  | .dbl d =>
      match t with
      | .double => some (d.round .double)
      | .float => if withinRange .float d then some (d.round .float) else none

/-- A leaf means what the DOM reader makes of it, except for floating-point numbers. -/
def leafMeaning (env : Env) (p : Prim) (j : Json) : LeafParse :=
  match p, j with
  | .flt t, .num x => (match floatMeaning t x with | some f => .ok (.flt f) | none => .fail)
  | p, j =>
      match desPrim env p j with
      | .ub => .ub
      | .reject _ => .fail
      | .ok pv => .ok pv

/-- The meaning of a part: type, target, next unused address. -/
abbrev MFn := Ty → Val → Nat → Means Val

/-- New elements of the same type. -/
def manyM (env : Env) (t : Ty) : List MFn → Nat → Means (List Val)
  | [], n => .yes [] n
  | f :: fs, n => (f t (env.ctor t) n).bind fun v n' => (manyM env t fs n').map (v :: ·)

/-- One component for each type, in place. -/
def eachM (env : Env) : List MFn → List Ty → List Val → Nat → Means (List Val)
  | [], [], _, n => .yes [] n
  | f :: fs, t :: ts, targets, n =>
      (f t (targets.headD (env.ctor t)) n).bind fun v n' => (eachM env fs ts targets.tail n').map (v :: ·)
  | _, _, _, _ => .no

/-- Entries of a map, in the order of the document: an existing value is read into again. -/
def entriesM (env : Env) (t : Ty) : List (Str × MFn) → List (Str × Val) → Nat → Means (List (Str × Val))
  | [], kvs, n => .yes kvs n
  | (k, f) :: fs, kvs, n =>
      (f t ((kvs.lookup k).getD (env.ctor t)) n).bind fun v n' => entriesM env t fs (mapAssign k v kvs) n'

/-- Position of the member with a name. -/
def memberAt (ms : List Member) (k : Str) : Option Nat := ms.findIdx? (·.name == k)

/-- Members of a class, in the order of the document; other keys are not allowed. -/
def membersM (env : Env) (ms : List Member) : List (Str × MFn) → List Val → Nat → Means (List Val)
  | [], vs, n => .yes vs n
  | (k, f) :: fs, vs, n =>
      match memberAt ms k with
      | none => .no
      | some i =>
          match ms[i]? with
          | none => .no
          | some m =>
              if m.kind = .optional then
                (f m.ty (env.ctor m.ty) n).bind fun v n' => membersM env ms fs (vs.set i (.present v)) n'
              else
                (f m.ty (vs.getD i (env.ctor m.ty)) n).bind fun v n' => membersM env ms fs (vs.set i v) n'

/-- The meaning of the node `j`, given those of its elements and members. -/
def nodeM (env : Env) (j : Json) (items : List MFn) (fields : List (Str × MFn)) : MFn
  | .prim p, _, n =>
      match leafMeaning env p j with
      | .ub => .ub
      | .fail => .no
      | .ok pv => .yes (.prim pv) n
  | .vec t, target, n =>
      match j with
      | .arr _ => (manyM env t items n).map fun vs => .seq (target.elements ++ vs)
      | _ => .no
  | .arr k t, target, n =>
      match j with
      | .arr _ => (eachM env items (List.replicate k t) target.components n).map .tup
      | _ => .no
  | .set t, target, n =>
      match j with
      | .arr _ => (manyM env t items n).map fun vs => .set (vs.foldl (fun s v => setInsert env.less v s) target.elements)
      | _ => .no
  | .map _ t, target, n =>
      match j with
      | .obj _ => (entriesM env t fields target.entries n).map .map
      | _ => .no
  | .dict t, target, n =>
      match j with
      | .arr _ => (manyM env (.tuple [.prim .str, t]) items n).map fun vs => .dict (target.entries ++ vs.map dictEntry)
      | _ => .no
  | .tuple ts, target, n =>
      match j with
      | .arr _ => (eachM env items ts target.components n).map .tup
      | _ => .no
  | .variant _, _, _ => .no
  | .cls c, target, n =>
      match j with
      | .obj _ => (membersM env (env.members c) fields (fitMembers env (env.members c) target.members) n).map .obj
      | _ => .no
  | .uptr t, _, n => (nodeM env j items fields t (env.ctor t) n).map .uptr
  | .sptr t, _, n => (nodeM env j items fields t (env.ctor t) (n + 1)).map (.sptr n)

mutual
/-- The meaning of a document. -/
def meaning (env : Env) : Json → MFn
  | .null => nodeM env .null [] []
  | .bool b => nodeM env (.bool b) [] []
  | .num x => nodeM env (.num x) [] []
  | .str s => nodeM env (.str s) [] []
  | .arr js => nodeM env (.arr js) (meaningItems env js) []
  | .obj ms => nodeM env (.obj ms) [] (meaningFields env ms)

/-- The meanings of the elements of an array. -/
def meaningItems (env : Env) : List Json → List MFn
  | [] => []
  | j :: js => meaning env j :: meaningItems env js

/-- The meanings of the members of an object. -/
def meaningFields (env : Env) : List (Str × Json) → List (Str × MFn)
  | [] => []
  | (k, j) :: ms => (k, meaning env j) :: meaningFields env ms
end

/-! ## Side conditions -/

mutual
/-- All integers of the document lie between `-2^63` and `2^64 - 1` (RapidJSON reports others as doubles). -/
def Json.proper : Json → Bool
  | .num (.int v) => decide (i64.min ≤ v) && decide (v ≤ u64.max)
  | .arr js => Json.properAll js
  | .obj ms => Json.properFields ms
  | _ => true

/-- `proper` for the elements of an array. -/
def Json.properAll : List Json → Bool
  | [] => true
  | j :: js => j.proper && Json.properAll js

/-- `proper` for the members of an object. -/
def Json.properFields : List (Str × Json) → Bool
  | [] => true
  | (_, j) :: ms => j.proper && Json.properFields ms
end

mutual
/-- Levels of nesting. -/
def Json.depth : Json → Nat
  | .arr js => 1 + Json.depthAll js
  | .obj ms => 1 + Json.depthFields ms
  | _ => 0

/-- Greatest depth of the elements. -/
def Json.depthAll : List Json → Nat
  | [] => 0
  | j :: js => Nat.max j.depth (Json.depthAll js)

/-- Greatest depth of the members. -/
def Json.depthFields : List (Str × Json) → Nat
  | [] => 0
  | (_, j) :: ms => Nat.max j.depth (Json.depthFields ms)
end

/-- The handler stack has room for `d + 1` handlers of any class. -/
def Roomy (host : Host) (d : Nat) : Prop := ∀ K c, K.length ≤ d → room host K c = true

/-- The hash tables find each member of a class and reject all other keys (proved from the construction of the
tables in `selects_of_build`). -/
def Selects (env : Env) (host : Host) : Prop := ∀ c, env.members c ≠ [] → ∀ k,
  selectMember env host c k = match memberAt (env.members c) k with | some i => .member i | none => .reject

/-- Numbers and enumerations without names, and pointers to them. -/
def Ty.numeric : Ty → Bool
  | .prim (.int _) => true
  | .prim (.flt _) => true
  | .prim (.enumInt _) => true
  | .uptr t => t.numeric
  | .sptr t => t.numeric
  | _ => false

/-- Element types with which vectors and sets work: those with a handler for the whole container, and those
that are not numbers. -/
def Ty.element (t : Ty) : Bool := (direct t).isSome || !t.numeric

mutual
/-- Types for which the parser computes the meaning: no variants, no enumerations with names, no vectors and sets
of characters, enumerations or pointers to numbers; classes from `G`. -/
def Streamable (G : Nat → Prop) : Ty → Prop
  | .prim p => p.stays = false
  | .vec t => t.element = true ∧ Streamable G t
  | .arr _ t => Streamable G t
  | .set t => t.element = true ∧ Streamable G t
  | .map _ t => Streamable G t
  | .dict t => Streamable G t
  | .tuple ts => StreamableAll G ts
  | .variant _ => False
  | .cls c => G c
  | .uptr t => Streamable G t
  | .sptr t => Streamable G t

/-- `Streamable` for lists. -/
def StreamableAll (G : Nat → Prop) : List Ty → Prop
  | [] => True
  | t :: ts => Streamable G t ∧ StreamableAll G ts
end

/-- The classes of `G` have members, all streamable. -/
def StreamableClasses (env : Env) (G : Nat → Prop) : Prop :=
  ∀ c, G c → env.members c ≠ [] ∧ ∀ m ∈ env.members c, Streamable G m.ty

end Verif.Core
