import Verif.ParseMeaning

/-!
# What a parse leaves in its target

`bool parse(const std::string&, T&)` reads into the variable of the caller, and what was read before a failure stays
in it (parse.hpp:25-31). `left` is the variable after the events of a text, also when one of them is refused or an
exception is thrown. `Leaves` is the specification.
-/

namespace Verif.Core
open Verif.Numeric Verif.EnumConv Verif.PerfectHash

/-! ## Model -/

/-- A leaf handler that refuses a token: only `base64_decode` touches its output before it fails
(parse_bytes.hpp:19, base64.hpp:243-321). -/
def refusedTop (e : Event) : Handler → Handler
  | .leaf .bytes v => match e with | .str s => .leaf .bytes ((.prim (.bytes (Base64.decodeOut s)))) | _ => .leaf .bytes v
  | h => h

/-- A new handler on the stack, which refuses the token. -/
def pushRefused (env : Env) (rest : List Frame) (fin : Option Val) (n : Nat) (t : Ty) (target : Val) (link : Link) (e : Event) : PState :=
  match openP env t target n with
  | (h, w, n') => ⟨⟨.parser t, refusedTop e h, link, w⟩ :: rest, fin, n'⟩

/-- The handlers, with the objects they refer to, when the event `e` has been refused or has raised an exception. General
vectors append an element before they make a handler for it (parse_vector.hpp:30-33), general sets do so in their
own storage, which is lost (parse_set.hpp:36-39); arrays and tuples make the handler for the component
(parse_array.hpp:88-93); maps make the entry of the key first (parse_map.hpp:25-28). -/
def refusedAt (env : Env) (host : Host) (s : PState) (e : Event) : PState :=
  match s.stack with
  | [] => s
  | f :: rest =>
      match f.handler with
      | .vecItems t vs =>
          (match direct t with
          | some _ => s
          | none =>
              if isToken t e then
                if room host (f.cls :: rest.map (·.cls)) (.parser t) then pushRefused env (f :: rest) s.finished s.next t (env.ctor t) .item e
                else { s with stack := { f with handler := .vecItems t (vs ++ [env.ctor t]) } :: rest }
              else s)
      | .setItems _ _ _ => s
      | .fixItems C ts i vs =>
          (match ts[i]? with
          | none => s
          | some t =>
              if e.startsValue && room host (rest.map (·.cls)) (.fixed C (i + 1)) &&
                  room host (.fixed C (i + 1) :: rest.map (·.cls)) (.parser t) then
                pushRefused env ({ f with cls := .fixed C (i + 1), handler := .fixItems C ts (i + 1) vs } :: rest) s.finished s.next t
                  (vs.getD i (env.ctor t)) (.nth i) e
              else s)
      | .mapItems C t kvs =>
          (match e with
          | .key k => { s with stack := { f with handler := .mapItems C t (mapAssign k ((kvs.lookup k).getD (env.ctor t)) kvs) } :: rest }
          | _ => s)
      | .objItems _ _ => s
      | h => { s with stack := { f with handler := refusedTop e h } :: rest }

/-- The variable after a sequence of events, up to the first one that is refused or raises an exception. -/
def left (env : Env) (host : Host) : PState → List Event → Val
  | s, [] => s.target
  | s, e :: es =>
      match pstep env host s e with
      | .go s' => left env host s' es
      | _ => (refusedAt env host s e).target

/-- The variable after `parse(str, value)` (parse.hpp:11-31). -/
def leftBehind (env : Env) (host : Host) (t : Ty) (feed : Feed) (target : Val) (n : Nat) : Val :=
  if room host [] (.parser t) then left env host (start env t target n) feed.events else target

/-! ## Specification -/

/-- A value as a variable of the type. (It is that anyway.) -/
def asVar (env : Env) : Ty → Val → Val
  | .vec _, v => .seq v.elements
  | .arr k t, v => .tup (fit env (List.replicate k t) v.components)
  | .set _, v => .set v.elements
  | .map _ _, v => .map v.entries
  | .dict _, v => .dict v.entries
  | .tuple ts, v => .tup (fit env ts v.components)
  | .cls c, v => .obj (fitMembers env (env.members c) v.members)
  | _, v => v

/-- The variable before the first token: pointers are set to new objects. -/
def opened (env : Env) : Ty → Val → Nat → Val
  | .uptr t, _, n => .uptr (opened env t (env.ctor t) n)
  | .sptr t, _, n => .sptr n (opened env t (env.ctor t) (n + 1))
  | t, v, _ => asVar env t v

/-- Vectors get a new last element as soon as the first token of it has the right kind, except those of truth values,
numbers and strings. -/
def stored : Ty → List Event → Bool
  | .prim .null, .null :: _ => true
  | .prim .bytes, .str _ :: _ | .prim .time, .str _ :: _ | .prim .date, .str _ :: _ | .prim (.enumStr _), .str _ :: _ => true
  | .vec _, .startArr :: _ | .arr _ _, .startArr :: _ | .set _, .startArr :: _ | .dict _, .startArr :: _ | .tuple _, .startArr :: _ => true
  | .map _ _, .startObj :: _ | .cls _, .startObj :: _ => true
  | .uptr t, es => behind t es
  | .sptr t, es => behind t es
  | _, _ => false
where
  /-- Behind a pointer: also for truth values and strings. -/
  behind : Ty → List Event → Bool
    | .prim .bool, .bool _ :: _ => true
    | .prim .str, .str _ :: _ => true
    | .prim .null, .null :: _ => true
    | .prim .bytes, .str _ :: _ | .prim .time, .str _ :: _ | .prim .date, .str _ :: _ | .prim (.enumStr _), .str _ :: _ => true
    | .vec _, .startArr :: _ | .arr _ _, .startArr :: _ | .set _, .startArr :: _ | .dict _, .startArr :: _ | .tuple _, .startArr :: _ => true
    | .map _ _, .startObj :: _ | .cls _, .startObj :: _ => true
    | .uptr t, es => behind t es
    | .sptr t, es => behind t es
    | _, _ => false

/-- Sets of truth values, numbers and strings get their elements one by one. -/
def oneByOne : Ty → Bool
  | .prim .bool | .prim (.flt _) | .prim .str => true
  | .prim (.int t) => t.width != .w8
  | _ => false

/-- The types that are read from arrays. -/
def fromArray : Ty → Bool
  | .vec _ | .arr _ _ | .set _ | .dict _ | .tuple _ => true
  | _ => false

/-- The types that are read from objects. -/
def fromObject : Ty → Bool
  | .map _ _ | .cls _ => true
  | _ => false

/-- The types of the components of arrays and tuples. -/
def componentTys : Ty → Option (List Ty)
  | .arr k t => some (List.replicate k t)
  | .tuple ts => some ts
  | _ => none

/-- `Leaves env es t target n w`: the text with the tokens `es` ends before the value is complete, or has a token that is
refused. Reading it as a `t` into the variable `target` leaves `w`. -/
inductive Leaves (env : Env) : List Event → Ty → Val → Nat → Val → Prop
  | ended (t : Ty) (target : Val) (n : Nat) : Leaves env [] t target n (opened env t target n)
  | leaf (p : Prim) (j : Json) (more : List Event) (target : Val) (n : Nat) : leafMeaning env p j = .fail →
      Leaves env (first j :: more) (.prim p) target n (spoil p j target)
  | array (t : Ty) (j : Json) (more : List Event) (target : Val) (n : Nat) : fromArray t = true → (∀ js, j ≠ .arr js) →
      Leaves env (first j :: more) t target n (asVar env t target)
  | object (t : Ty) (j : Json) (more : List Event) (target : Val) (n : Nat) : fromObject t = true → (∀ ms, j ≠ .obj ms) →
      Leaves env (first j :: more) t target n (asVar env t target)
  | vec (t : Ty) (pre : List Json) (es : List Event) (target : Val) (n : Nat) (vs : List Val) (n' : Nat) (w : Val) :
      manyM env t (meaningItems env pre) n = .yes vs n' → Leaves env es t (env.ctor t) n' w →
      Leaves env (.startArr :: (eventsItems pre ++ es)) (.vec t) target n (.seq (target.elements ++ vs ++ if stored t es then [w] else []))
  | set (t : Ty) (pre : List Json) (es : List Event) (target : Val) (n : Nat) (vs : List Val) (n' : Nat) (w : Val) :
      manyM env t (meaningItems env pre) n = .yes vs n' → Leaves env es t (env.ctor t) n' w →
      Leaves env (.startArr :: (eventsItems pre ++ es)) (.set t) target n
        (.set (if oneByOne t then vs.foldl (fun s v => setInsert env.less v s) target.elements else target.elements))
  | dict (t : Ty) (pre : List Json) (es : List Event) (target : Val) (n : Nat) (vs : List Val) (n' : Nat) (w : Val) :
      manyM env (.tuple [.prim .str, t]) (meaningItems env pre) n = .yes vs n' →
      Leaves env es (.tuple [.prim .str, t]) (env.ctor (.tuple [.prim .str, t])) n' w →
      Leaves env (.startArr :: (eventsItems pre ++ es)) (.dict t) target n
        (.dict (target.entries ++ (vs ++ if stored (.tuple [.prim .str, t]) es then [w] else []).map dictEntry))
  | component (C : Ty) (ts : List Ty) (pre : List Json) (e : Event) (es : List Event) (t : Ty) (target : Val) (n : Nat) (vs : List Val) (n' : Nat)
      (w : Val) : componentTys C = some ts → eachM env (meaningItems env pre) (ts.take pre.length) target.components n = .yes vs n' →
      ts[pre.length]? = some t → e.startsValue = true →
      Leaves env (e :: es) t ((fit env ts target.components).getD pre.length (env.ctor t)) n' w →
      Leaves env (.startArr :: (eventsItems pre ++ e :: es)) C target n (.tup (vs ++ w :: (fit env ts target.components).drop (pre.length + 1)))
  | number (C : Ty) (ts : List Ty) (pre : List Json) (es : List Event) (target : Val) (n : Nat) (vs : List Val) (n' : Nat) :
      componentTys C = some ts → pre.length ≤ ts.length →
      eachM env (meaningItems env pre) (ts.take pre.length) target.components n = .yes vs n' →
      (es = [] ∨ (pre.length < ts.length ∧ ∃ more, es = .endArr :: more) ∨ (pre.length = ts.length ∧ ∃ j more, es = first j :: more)) →
      Leaves env (.startArr :: (eventsItems pre ++ es)) C target n (.tup (vs ++ (fit env ts target.components).drop pre.length))
  | mapEnded (o : Bool) (t : Ty) (pre : List (Str × Json)) (target : Val) (n : Nat) (kvs : List (Str × Val)) (n' : Nat) :
      entriesM env t (meaningFields env pre) target.entries n = .yes kvs n' →
      Leaves env (.startObj :: eventsMembers pre) (.map o t) target n (.map kvs)
  | entry (o : Bool) (t : Ty) (pre : List (Str × Json)) (k : Str) (es : List Event) (target : Val) (n : Nat) (kvs : List (Str × Val)) (n' : Nat)
      (w : Val) : entriesM env t (meaningFields env pre) target.entries n = .yes kvs n' →
      Leaves env es t ((kvs.lookup k).getD (env.ctor t)) n' w →
      Leaves env (.startObj :: (eventsMembers pre ++ .key k :: es)) (.map o t) target n (.map (mapAssign k w kvs))
  | clsEnded (c : Nat) (pre : List (Str × Json)) (target : Val) (n : Nat) (vs : List Val) (n' : Nat) :
      membersM env (env.members c) (meaningFields env pre) (fitMembers env (env.members c) target.members) n = .yes vs n' →
      Leaves env (.startObj :: eventsMembers pre) (.cls c) target n (.obj vs)
  | unknown (c : Nat) (pre : List (Str × Json)) (k : Str) (more : List Event) (target : Val) (n : Nat) (vs : List Val) (n' : Nat) :
      membersM env (env.members c) (meaningFields env pre) (fitMembers env (env.members c) target.members) n = .yes vs n' →
      memberAt (env.members c) k = none →
      Leaves env (.startObj :: (eventsMembers pre ++ .key k :: more)) (.cls c) target n (.obj vs)
  | member (c : Nat) (pre : List (Str × Json)) (k : Str) (es : List Event) (target : Val) (n : Nat) (vs : List Val) (n' i : Nat) (m : Member) (w : Val) :
      membersM env (env.members c) (meaningFields env pre) (fitMembers env (env.members c) target.members) n = .yes vs n' →
      memberAt (env.members c) k = some i → (env.members c)[i]? = some m →
      Leaves env es m.ty (if m.kind = .optional then env.ctor m.ty else vs.getD i (env.ctor m.ty)) n' w →
      Leaves env (.startObj :: (eventsMembers pre ++ .key k :: es)) (.cls c) target n (.obj (vs.set i (if m.kind = .optional then .present w else w)))
  | uptr (t : Ty) (es : List Event) (target : Val) (n : Nat) (w : Val) : Leaves env es t (env.ctor t) n w → Leaves env es (.uptr t) target n (.uptr w)
  | sptr (t : Ty) (es : List Event) (target : Val) (n : Nat) (w : Val) : Leaves env es t (env.ctor t) (n + 1) w →
      Leaves env es (.sptr t) target n (.sptr n w)

/-- Deepest level of nesting of a sequence of events that starts at a level. -/
def height : Nat → List Event → Nat
  | l, [] => l
  | l, .startArr :: es | l, .startObj :: es => max l (height (l + 1) es)
  | l, .endArr :: es | l, .endObj :: es => max l (height (l - 1) es)
  | l, _ :: es => max l (height l es)

end Verif.Core
