import Verif.Parse

/-!
# The streaming parser without the stack

`pval` computes what the handler stack does with the events of one value, by recursion over the value. It
keeps the stack only as the list `K` of the classes of the handlers below, for the limits of the stack.
`prun_pval` shows that it is what the machine of Parse.lean does.
-/

namespace Verif.Core
open Verif.Numeric Verif.EnumConv Verif.PerfectHash

/-- Outcome of the events of a value: popped, still on the stack (enumerations with names), `false`, exception,
undefined. -/
inductive PartRes (α : Type)
  | ok (v : α) (n : Nat)
  | stuck (p : Prim) (v : α) (n : Nat)
  | fail
  | threw
  | ub

/-- Outcome of the events of the parts of a value. -/
inductive LRes (α : Type)
  | ok (v : α) (n : Nat)
  | fail
  | threw
  | ub

/-- The value made from its parts. -/
def LRes.whole {α : Type} (f : α → Val) : LRes α → PartRes Val
  | .ok v n => .ok (f v) n
  | .fail => .fail
  | .threw => .threw
  | .ub => .ub

/-- The reader of one value: classes below, handler, next address. -/
abbrev PFn := List HClass → Handler → Nat → PartRes Val

/-- First event of a value. -/
def first : Json → Event
  | .null => .null
  | .bool b => .bool b
  | .num n => .num n
  | .str s => .str s
  | .arr _ => .startArr
  | .obj _ => .startObj

/-- A part with its own handler; what follows it is left to `k`. When the handler of the part stays on the stack
(enumeration with names) it refuses the closing token of the whole. -/
def withChild {α : Type} (env : Env) (host : Host) (K : List HClass) (c : HClass) (t : Ty) (target : Val) (n : Nat) (outer : Val → Val)
    (f : PFn) (k : Val → Nat → LRes α) : LRes α :=
  if room host K c then
    match openP env t target n with
    | (h, w, n') =>
        match f K h n' with
        | .ok v n'' => k (outer (w v)) n''
        | .stuck _ _ _ => .fail
        | .fail => .fail
        | .threw => .threw
        | .ub => .ub
  else .threw

/-- Elements of a vector. `K` includes the handler of the vector. -/
def loopVec (env : Env) (host : Host) (K : List HClass) (t : Ty) : List (Event × PFn) → List Val → Nat → LRes (List Val)
  | [], vs, n => .ok vs n
  | (e, f) :: rest, vs, n =>
      match direct t with
      | some p =>
          (match leafParse env p e with
          | .ub => .ub
          | .fail => .fail
          | .ok pv => loopVec env host K t rest (vs ++ [.prim pv]) n)
      | none =>
          if isToken t e then
            withChild env host K (.parser t) t (env.ctor t) n id f fun v n' => loopVec env host K t rest (vs ++ [v]) n'
          else .fail

/-- Elements of a set. -/
def loopSet (env : Env) (host : Host) (K : List HClass) (t : Ty) : List (Event × PFn) → List Val → List Val → Nat → LRes (List Val)
  | [], storage, vs, n => .ok (storage.foldl (fun s v => setInsert env.less v s) vs) n
  | (e, f) :: rest, storage, vs, n =>
      match direct t with
      | some p =>
          (match leafParse env p e with
          | .ub => .ub
          | .fail => .fail
          | .ok pv => loopSet env host K t rest storage (setInsert env.less (.prim pv) vs) n)
      | none =>
          if isToken t e then
            withChild env host K (.parser t) t (env.ctor t) n id f fun v n' => loopSet env host K t rest (storage ++ [v]) vs n'
          else .fail

/-- Components of an array or tuple from position `i` on. `K` is without the handler of the tuple. -/
def loopFix (env : Env) (host : Host) (K : List HClass) (C : Ty) (ts : List Ty) : List (Event × PFn) → Nat → List Val → Nat → LRes (List Val)
  | [], i, vs, n => if ts[i]? = none then .ok vs n else .fail
  | (_, f) :: rest, i, vs, n =>
      match ts[i]? with
      | none => .fail
      | some t =>
          if room host K (.fixed C (i + 1)) then
            withChild env host (.fixed C (i + 1) :: K) (.parser t) t (vs.getD i (env.ctor t)) n id f fun v n' =>
              loopFix env host K C ts rest (i + 1) (vs.set i v) n'
          else .threw

/-- Entries of a map. -/
def loopMap (env : Env) (host : Host) (K : List HClass) (t : Ty) : List (Str × PFn) → List (Str × Val) → Nat → LRes (List (Str × Val))
  | [], kvs, n => .ok kvs n
  | (k, f) :: rest, kvs, n =>
      withChild env host K (.parser t) t ((kvs.lookup k).getD (env.ctor t)) n id f fun v n' =>
        loopMap env host K t rest (mapAssign k v kvs) n'

/-- Members of a class. -/
def loopObj (env : Env) (host : Host) (K : List HClass) (c : Nat) : List (Str × PFn) → List Val → Nat → LRes (List Val)
  | [], vs, n => .ok vs n
  | (k, f) :: rest, vs, n =>
      match selectMember env host c k with
      | .reject => .fail
      | .memoryError => .ub
      | .member i =>
          match (env.members c)[i]? with
          | none => .ub
          | some m =>
              if m.kind = .optional then
                withChild env host K (.optional m.ty) m.ty (env.ctor m.ty) n .present f fun v n' =>
                  loopObj env host K c rest (vs.set i v) n'
              else
                withChild env host K (.parser m.ty) m.ty (vs.getD i (env.ctor m.ty)) n id f fun v n' =>
                  loopObj env host K c rest (vs.set i v) n'

/-- A value without components: only leaf handlers accept it. -/
def scalar (env : Env) (e : Event) : PFn
  | _, .leaf p _, n =>
      match leafParse env p e with
      | .ub => .ub
      | .fail => .fail
      | .ok pv => if p.stays then .stuck p (.prim pv) n else .ok (.prim pv) n
  | _, _, _ => .fail

/-- An array. -/
def arrayFn (env : Env) (host : Host) (items : List (Event × PFn)) : PFn
  | K, .vecStart t vs, n =>
      if room host K (.vecItems t) then (loopVec env host (.vecItems t :: K) t items vs n).whole .seq else .threw
  | K, .setStart t vs, n =>
      if room host K (.setItems t) then (loopSet env host (.setItems t :: K) t items [] vs n).whole .set else .threw
  | K, .fixStart C ts vs, n =>
      if room host K (.fixed C 0) then (loopFix env host K C ts items 0 vs n).whole .tup else .threw
  | _, _, _ => .fail

/-- An object. -/
def objectFn (env : Env) (host : Host) (fields : List (Str × PFn)) : PFn
  | K, .mapStart C t kvs, n =>
      if room host K (.mapItems C) then (loopMap env host (.mapItems C :: K) t fields kvs n).whole .map else .threw
  | K, .objStart c vs, n =>
      if room host K (.object c) then (loopObj env host (.object c :: K) c fields vs n).whole .obj else .threw
  | _, _, _ => .fail

mutual
/-- The events of a value, delivered to the handler of a `JsonParser<T>`. -/
def pval (env : Env) (host : Host) : Json → PFn
  | .null => scalar env .null
  | .bool b => scalar env (.bool b)
  | .num n => scalar env (.num n)
  | .str s => scalar env (.str s)
  | .arr js => arrayFn env host (pitems env host js)
  | .obj ms => objectFn env host (pfields env host ms)

/-- The elements of an array. -/
def pitems (env : Env) (host : Host) : List Json → List (Event × PFn)
  | [] => []
  | j :: js => (first j, pval env host j) :: pitems env host js

/-- The members of an object. -/
def pfields (env : Env) (host : Host) : List (Str × Json) → List (Str × PFn)
  | [] => []
  | (k, j) :: ms => (k, pval env host j) :: pfields env host ms
end

theorem pitems_eq (env : Env) (host : Host) (js : List Json) :
    pitems env host js = js.map fun j => (first j, pval env host j) := by
  induction js with
  | nil => simp [pitems]
  | cons j js ih => simp [pitems, ih]

theorem pfields_eq (env : Env) (host : Host) (ms : List (Str × Json)) :
    pfields env host ms = ms.map fun p => (p.1, pval env host p.2) := by
  induction ms with
  | nil => simp [pfields]
  | cons p ms ih => cases p; simp [pfields, ih]

end Verif.Core
