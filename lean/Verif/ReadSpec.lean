import Verif.ReadPure

/-!
# What a document means for a type

`Decodes env t j target v`: the document `j` conforms to the type `t` and denotes the value `v` (`target`
supplies the default members that are not in the document). `Fails env t j`: `j` does not conform to `t`.
Neither refers to the readers. They cover the types without `std::shared_ptr`.
-/

namespace Verif.Core
open Verif.Numeric Verif.EnumConv

/-- A document denotes a value of a type without components. -/
inductive LeafReads (env : Env) : Prim → Json → PVal → Prop
  | null : LeafReads env .null .null .null
  | bool (b : Bool) : LeafReads env .bool (.bool b) (.bool b)
  | int (t : IntTy) (v : Int) : t.InRange v → LeafReads env (.int t) (.num (.int v)) (.int v)
  | flt (t : FltTy) (n : JsonNum) : LeafReads env (.flt t) (.num n) (.flt (n.getDouble.round t))
  | str (s : Str) : LeafReads env .str (.str s) (.str s)
  | bytes (s bs : Str) : Base64.decode s = some bs → LeafReads env .bytes (.str s) (.bytes bs)
  | time (s : Str) (t : Int) : DateTime.parseDatetime env.clk s = .ok t → LeafReads env .time (.str s) (.time t)
  | date (s : Str) (y : Int) (m d : Nat) : DateTime.readDate env.clk s = .ok y m d → LeafReads env .date (.str s) (.date y m d)
  | enumInt (t : IntTy) (v : Int) : t.InRange v → LeafReads env (.enumInt t) (.num (.int v)) (.int v)
  | enumStr (table : Table) (s : Str) (v : Int) : enumValue table s = some v → LeafReads env (.enumStr table) (.str s) (.int v)

/-- Types whose documents are arrays. -/
def Ty.wantsArray : Ty → Bool
  | .vec _ | .arr _ _ | .set _ | .dict _ | .tuple _ => true
  | _ => false

/-- Types whose documents are objects. -/
def Ty.wantsObject : Ty → Bool
  | .map _ _ | .cls _ => true
  | _ => false

mutual
/-- The document conforms to the type and denotes the value. -/
inductive Decodes (env : Env) : Ty → Json → Val → Val → Prop
  | prim (p : Prim) (j : Json) (target : Val) (pv : PVal) : LeafReads env p j pv → Decodes env (.prim p) j target (.prim pv)
  | vec (t : Ty) (js : List Json) (target : Val) (vs : List Val) : DecodesAll env t js vs → Decodes env (.vec t) (.arr js) target (.seq vs)
  | arr (n : Nat) (t : Ty) (js : List Json) (target : Val) (vs : List Val) : js.length = n → DecodesAll env t js vs →
      Decodes env (.arr n t) (.arr js) target (.tup vs)
  | set (t : Ty) (js : List Json) (target : Val) (vs : List Val) : DecodesAll env t js vs →
      Decodes env (.set t) (.arr js) target (.set (setOf env.less vs))
  | map (o : Bool) (t : Ty) (ms : List (Str × Json)) (target : Val) (kvs : List (Str × Val)) : DecodesEntries env t ms kvs →
      Decodes env (.map o t) (.obj ms) target (.map (mapOf kvs))
  | dict (t : Ty) (js : List Json) (target : Val) (vs : List Val) : DecodesAll env (.tuple [.prim .str, t]) js vs →
      Decodes env (.dict t) (.arr js) target (.dict (vs.map dictEntry))
  | tuple (ts : List Ty) (js : List Json) (target : Val) (vs : List Val) : DecodesEach env ts js target.components vs →
      Decodes env (.tuple ts) (.arr js) target (.tup vs)
  | variant (ts : List Ty) (j : Json) (target : Val) (i : Nat) (t : Ty) (v : Val) : ts[i]? = some t →
      (∀ k t', k < i → ts[k]? = some t' → Fails env t' j) → Decodes env t j (env.fresh t) v →
      Decodes env (.variant ts) j target (.alt i v)
  | cls (c : Nat) (ms : List (Str × Json)) (target : Val) (vs : List Val) : DecodesMembers env ms (env.members c) target.members vs →
      Decodes env (.cls c) (.obj ms) target (.obj vs)
  | uptr (t : Ty) (j : Json) (target v : Val) : Decodes env t j (env.ctor t) v → Decodes env (.uptr t) j target (.uptr v)

/-- Each document denotes a value of the same type. -/
inductive DecodesAll (env : Env) : Ty → List Json → List Val → Prop
  | nil (t : Ty) : DecodesAll env t [] []
  | cons (t : Ty) (j : Json) (js : List Json) (v : Val) (vs : List Val) : Decodes env t j (env.fresh t) v → DecodesAll env t js vs →
      DecodesAll env t (j :: js) (v :: vs)

/-- The value of each member denotes a value of the same type; keys end at a NUL character. -/
inductive DecodesEntries (env : Env) : Ty → List (Str × Json) → List (Str × Val) → Prop
  | nil (t : Ty) : DecodesEntries env t [] []
  | cons (t : Ty) (k : Str) (j : Json) (ms : List (Str × Json)) (v : Val) (kvs : List (Str × Val)) : Decodes env t j (env.fresh t) v →
      DecodesEntries env t ms kvs → DecodesEntries env t ((k, j) :: ms) ((cstr k, v) :: kvs)

/-- As many documents as types, each denotes a value of its type. -/
inductive DecodesEach (env : Env) : List Ty → List Json → List Val → List Val → Prop
  | nil (targets : List Val) : DecodesEach env [] [] targets []
  | cons (t : Ty) (ts : List Ty) (j : Json) (js : List Json) (targets : List Val) (v : Val) (vs : List Val) :
      Decodes env t j (targets.headD (env.fresh t)) v → DecodesEach env ts js targets.tail vs →
      DecodesEach env (t :: ts) (j :: js) targets (v :: vs)

/-- Every required member is in the document, and every member that is in the document denotes a value. -/
inductive DecodesMembers (env : Env) : List (Str × Json) → List Member → List Val → List Val → Prop
  | nil (fields : List (Str × Json)) (targets : List Val) : DecodesMembers env fields [] targets []
  | present (fields : List (Str × Json)) (m : Member) (ms : List Member) (targets : List Val) (i : Nat) (j : Json) (v : Val) (vs : List Val) :
      findMember m.name fields = some (i, j) → m.kind ≠ .optional → Decodes env m.ty j (targets.headD (env.fresh m.ty)) v →
      DecodesMembers env fields ms targets.tail vs → DecodesMembers env fields (m :: ms) targets (v :: vs)
  | some (fields : List (Str × Json)) (m : Member) (ms : List Member) (targets : List Val) (i : Nat) (j : Json) (v : Val) (vs : List Val) :
      findMember m.name fields = some (i, j) → m.kind = .optional → Decodes env m.ty j (env.fresh m.ty) v →
      DecodesMembers env fields ms targets.tail vs → DecodesMembers env fields (m :: ms) targets (.present v :: vs)
  | none (fields : List (Str × Json)) (m : Member) (ms : List Member) (targets : List Val) (vs : List Val) :
      findMember m.name fields = none → m.kind = .optional →
      DecodesMembers env fields ms targets.tail vs → DecodesMembers env fields (m :: ms) targets (.absent :: vs)
  | keep (fields : List (Str × Json)) (m : Member) (ms : List Member) (targets : List Val) (vs : List Val) :
      findMember m.name fields = none → m.kind = .default →
      DecodesMembers env fields ms targets.tail vs →
      DecodesMembers env fields (m :: ms) targets (targets.headD (env.fresh m.ty) :: vs)

/-- The document does not conform to the type. -/
inductive Fails (env : Env) : Ty → Json → Prop
  | prim (p : Prim) (j : Json) : (∀ pv, ¬ LeafReads env p j pv) → Fails env (.prim p) j
  | array (t : Ty) (j : Json) : t.wantsArray = true → (∀ js, j ≠ .arr js) → Fails env t j
  | object (t : Ty) (j : Json) : t.wantsObject = true → (∀ ms, j ≠ .obj ms) → Fails env t j
  | vec (t : Ty) (js : List Json) (j : Json) : j ∈ js → Fails env t j → Fails env (.vec t) (.arr js)
  | arr (n : Nat) (t : Ty) (js : List Json) (j : Json) : j ∈ js → Fails env t j → Fails env (.arr n t) (.arr js)
  | arrLength (n : Nat) (t : Ty) (js : List Json) : js.length ≠ n → Fails env (.arr n t) (.arr js)
  | set (t : Ty) (js : List Json) (j : Json) : j ∈ js → Fails env t j → Fails env (.set t) (.arr js)
  | map (o : Bool) (t : Ty) (ms : List (Str × Json)) (p : Str × Json) : p ∈ ms → Fails env t p.2 → Fails env (.map o t) (.obj ms)
  | dict (t : Ty) (js : List Json) (j : Json) : j ∈ js → Fails env (.tuple [.prim .str, t]) j → Fails env (.dict t) (.arr js)
  | tuple (ts : List Ty) (js : List Json) (i : Nat) (t : Ty) (j : Json) : ts[i]? = some t → js[i]? = some j → Fails env t j →
      Fails env (.tuple ts) (.arr js)
  | tupleLength (ts : List Ty) (js : List Json) : js.length ≠ ts.length → Fails env (.tuple ts) (.arr js)
  | variant (ts : List Ty) (j : Json) : (∀ t, t ∈ ts → Fails env t j) → Fails env (.variant ts) j
  | member (c : Nat) (ms : List (Str × Json)) (m : Member) (i : Nat) (j : Json) : m ∈ env.members c → findMember m.name ms = some (i, j) →
      Fails env m.ty j → Fails env (.cls c) (.obj ms)
  | missing (c : Nat) (ms : List (Str × Json)) (m : Member) : m ∈ env.members c → findMember m.name ms = none → m.kind = .required →
      Fails env (.cls c) (.obj ms)
  | uptr (t : Ty) (j : Json) : Fails env t j → Fails env (.uptr t) j
end

/-! ## Side conditions -/

/-- No overflow of the clock when the string is read as a time stamp or a date (overflow is undefined
behaviour). -/
def CalmStr (env : Env) (s : Str) : Prop :=
  DateTime.parseDatetime env.clk s ≠ .overflow ∧ DateTime.readDate env.clk s ≠ .overflow

mutual
/-- No string of the document makes the clock overflow. -/
def Calm (env : Env) : Json → Prop
  | .str s => CalmStr env s
  | .arr js => CalmAll env js
  | .obj ms => CalmFields env ms
  | _ => True

/-- `Calm` for the elements of an array. -/
def CalmAll (env : Env) : List Json → Prop
  | [] => True
  | j :: js => Calm env j ∧ CalmAll env js

/-- `Calm` for the members of an object. -/
def CalmFields (env : Env) : List (Str × Json) → Prop
  | [] => True
  | (_, j) :: ms => Calm env j ∧ CalmFields env ms
end

/-- A component of a document with the type it is read as. -/
inductive Child (env : Env) : Ty → Json → Ty → Json → Prop
  | vec (t : Ty) (js : List Json) (j : Json) : j ∈ js → Child env (.vec t) (.arr js) t j
  | arr (n : Nat) (t : Ty) (js : List Json) (j : Json) : j ∈ js → Child env (.arr n t) (.arr js) t j
  | set (t : Ty) (js : List Json) (j : Json) : j ∈ js → Child env (.set t) (.arr js) t j
  | map (o : Bool) (t : Ty) (ms : List (Str × Json)) (p : Str × Json) : p ∈ ms → Child env (.map o t) (.obj ms) t p.2
  | dict (t : Ty) (js : List Json) (j : Json) : j ∈ js → Child env (.dict t) (.arr js) (.tuple [.prim .str, t]) j
  | tuple (ts : List Ty) (js : List Json) (i : Nat) (t : Ty) (j : Json) : ts[i]? = some t → js[i]? = some j →
      Child env (.tuple ts) (.arr js) t j
  | variant (ts : List Ty) (j : Json) (t : Ty) : t ∈ ts → Child env (.variant ts) j t j
  | cls (c : Nat) (ms : List (Str × Json)) (m : Member) (i : Nat) (j : Json) : m ∈ env.members c → findMember m.name ms = some (i, j) →
      Child env (.cls c) (.obj ms) m.ty j
  | uptr (t : Ty) (j : Json) : Child env (.uptr t) j t j

/-- A node of the document with the type it is read as. -/
inductive Part (env : Env) (t : Ty) (j : Json) : Ty → Json → Prop
  | self : Part env t j t j
  | child (t1 : Ty) (j1 : Json) (t2 : Ty) (j2 : Json) : Part env t j t1 j1 → Child env t1 j1 t2 j2 → Part env t j t2 j2

/-- The member is in the document and does not conform, or it is required and not in the document. -/
def BadMember (env : Env) (fields : List (Str × Json)) (m : Member) : Prop :=
  (∃ i j, findMember m.name fields = some (i, j) ∧ Fails env m.ty j) ∨ (findMember m.name fields = none ∧ m.kind = .required)

/-- The member has no influence on the verdict: it is not in the document and need not be. -/
def Irrelevant (fields : List (Str × Json)) (m : Member) : Prop := findMember m.name fields = none ∧ m.kind ≠ .required

/-- If a member of the class is bad, then the last member that matters is bad. -/
def LastDecides (env : Env) (c : Nat) (fields : List (Str × Json)) : Prop :=
  (∃ m ∈ env.members c, BadMember env fields m) →
    ∃ pre m post, env.members c = pre ++ m :: post ∧ BadMember env fields m ∧ ∀ m' ∈ post, Irrelevant fields m'

/-- No object of the document has a bad member that is masked by a later good one. -/
def Unmasked (env : Env) (t : Ty) (j : Json) : Prop := ∀ c fields, Part env t j (.cls c) (.obj fields) → LastDecides env c fields

/-- The same for objects inside variants. -/
def VariantsUnmasked (env : Env) (t : Ty) (j : Json) : Prop := ∀ ts j', Part env t j (.variant ts) j' → Unmasked env (.variant ts) j'

end Verif.Core
