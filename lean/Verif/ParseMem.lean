import Verif.ParseMore

/-!
# The streaming parser once more, in place

In `Parse` each handler on the stack carries the object it fills. In the headers a handler has a reference to
an object that is part of the caller's variable (or of the temporary storage of a handler of a set), and fills
it in place. This module models that: a memory, handlers with references into it, and which references are
still valid.

Memory consists of the caller's variable (`roots[0]`) and the storage of each handler of a set on the stack,
from the bottom to the top (`JsonSetParser::storage`, parse_set.hpp:44; handlers of sets of truth values,
numbers and strings have no storage, here it stays empty). A reference is a root and a path.

Writing to an object invalidates all references to proper parts of it. This is more than C++ says: a vector
that grows may move its elements, assigning to a pointer or an `optional` destroys the old object; but a map
keeps its elements in place.
-/

namespace Verif.Core

/-! ## Memory -/

/-- From an object to a part of it: element of a vector, component of a tuple or array, value of a key, member
of a class, value of an `optional`, object of a pointer. -/
inductive Hop
  | item (i : Nat)
  | nth (i : Nat)
  | key (k : Str)
  | member (i : Nat)
  | engaged
  | pointee
deriving DecidableEq, Repr

/-- A part of an object. -/
def Val.part : Val → Hop → Option Val
  | .seq vs, .item i => vs[i]?
  | .tup vs, .nth i => vs[i]?
  | .map kvs, .key k => kvs.lookup k
  | .obj vs, .member i => vs[i]?
  | .present v, .engaged => some v
  | .uptr v, .pointee => some v
  | .sptr _ v, .pointee => some v
  | _, _ => none

/-- Exchange a part of an object. -/
def Val.withPart : Val → Hop → Val → Option Val
  | .seq vs, .item i, x => some (.seq (vs.set i x))
  | .tup vs, .nth i, x => some (.tup (vs.set i x))
  | .map kvs, .key k, x => some (.map (mapAssign k x kvs))
  | .obj vs, .member i, x => some (.obj (vs.set i x))
  | .present _, .engaged, x => some (.present x)
  | .uptr _, .pointee, x => some (.uptr x)
  | .sptr a _, .pointee, x => some (.sptr a x)
  | _, _, _ => none

/-- The object at the end of a path. -/
def Val.load : Val → List Hop → Option Val
  | v, [] => some v
  | v, h :: p => (v.part h).bind (·.load p)

/-- Write to the object at the end of a path. -/
def Val.store : Val → List Hop → Val → Option Val
  | _, [], x => some x
  | v, h :: p, x => (v.part h).bind fun w => (w.store p x).bind fun w' => v.withPart h w'

/-- A reference. -/
structure Ref where
  root : Nat
  path : List Hop
deriving DecidableEq, Repr

/-- Reference to a part. -/
def Ref.to (r : Ref) (h : Hop) : Ref := ⟨r.root, r.path ++ [h]⟩

/-- Read through a reference. -/
def load (roots : List Val) (r : Ref) : Option Val := (roots[r.root]?).bind (·.load r.path)

/-- Write through a reference. -/
def store (roots : List Val) (r : Ref) (x : Val) : Option (List Val) :=
  (roots[r.root]?).bind fun v => (v.store r.path x).map fun v' => roots.set r.root v'

/-! ## Handlers -/

/-- The handler classes, see `Handler`; `setItems` has the root that is its storage. -/
inductive Shell
  | leaf (p : Prim)
  | vecStart (t : Ty)
  | vecItems (t : Ty)
  | setStart (t : Ty)
  | setItems (t : Ty) (storage : Nat)
  | fixStart (C : Ty) (ts : List Ty)
  | fixItems (C : Ty) (ts : List Ty) (i : Nat)
  | mapStart (C t : Ty)
  | mapItems (C t : Ty)
  | objStart (c : Nat)
  | objItems (c : Nat)
  | unsupported

/-- A handler on the stack with the member `ref` or `container`; `live` is false when the object referred to
may have been moved or destroyed. -/
structure MFrame where
  cls : HClass
  shell : Shell
  ref : Ref
  live : Bool

/-- The state: memory, `ReaderContext::stack` (parse_base.hpp:56), the next unused address. -/
structure MState where
  roots : List Val
  stack : List MFrame
  next : Nat

/-- Outcome of an event, see `POut`; `dangling` is the use of an invalid reference, or of a reference to an
object that does not have the type of the reference. -/
inductive MOut
  | go (s : MState)
  | fail
  | threw
  | ub
  | noHandler
  | dangling

/-- The frame after a write to `r`. -/
def MFrame.touch (r : Ref) (f : MFrame) : MFrame :=
  if f.ref.root = r.root ∧ r.path <+: f.ref.path ∧ f.ref.path ≠ r.path then { f with live := false } else f

/-- Write to `r`, a reference that the handler `f` has, or a part of it. -/
def assign (f : MFrame) (r : Ref) (x : Val) (roots : List Val) (frames : List MFrame) (k : List Val → List MFrame → MOut) : MOut :=
  if f.live then
    match store roots r x with
    | some roots' => k roots' (frames.map (MFrame.touch r))
    | none => .dangling
  else .dangling

/-- Read the object of the handler `f`. -/
def fetch (f : MFrame) (roots : List Val) (k : Val → MOut) : MOut :=
  if f.live then
    match load roots f.ref with
    | some v => k v
    | none => .dangling
  else .dangling

/-- `ReaderContext::pop` (parse_base.hpp:26-30): the storage of the handler of a set is destroyed. -/
def mpop (roots : List Val) (f : MFrame) (rest : List MFrame) (n : Nat) : MOut :=
  .go ⟨(match f.shell with | .setItems _ _ => roots.dropLast | _ => roots), rest, n⟩

/-- `ReaderContext::replace` (parse_base.hpp:33-37): the new handler has a reference to the same object. -/
def mreplace (host : Host) (f : MFrame) (rest : List MFrame) (roots : List Val) (n : Nat) (c : HClass) (s : Shell) : MOut :=
  if room host (rest.map (·.cls)) c then .go ⟨roots, { f with cls := c, shell := s } :: rest, n⟩ else .threw

/-- An event delivered to a `JsonParser<T>` that is the top `f` of the stack, see `openStep`: leaves are written
to the object (`ref = …`), containers are replaced. The storage of the handler of a set is made
(parse_set.hpp:17-20). -/
def mopenStep (env : Env) (host : Host) (f : MFrame) (rest : List MFrame) (roots : List Val) (n : Nat) (e : Event) : MOut :=
  match f.shell with
  | .leaf p =>
      match leafParse env p e with
      | .ub => .ub
      | .fail => .fail
      | .ok pv =>
          assign f f.ref (.prim pv) roots rest fun roots rest =>
            if p.stays then .go ⟨roots, f :: rest, n⟩ else mpop roots f rest n
  | .vecStart t => match e with | .startArr => mreplace host f rest roots n (.vecItems t) (.vecItems t) | _ => .fail
  | .setStart t =>
      match e with
      | .startArr => mreplace host f rest (roots ++ [.seq []]) n (.setItems t) (.setItems t roots.length)
      | _ => .fail
  | .fixStart C ts => match e with | .startArr => mreplace host f rest roots n (.fixed C 0) (.fixItems C ts 0) | _ => .fail
  | .mapStart C t => match e with | .startObj => mreplace host f rest roots n (.mapItems C) (.mapItems C t) | _ => .fail
  | .objStart c => match e with | .startObj => mreplace host f rest roots n (.object c) (.objItems c) | _ => .fail
  | _ => .fail

/-- The handler class `JsonParser<T>` for types that are not pointers. -/
def shellOf (env : Env) : Ty → Shell
  | .prim p => .leaf p
  | .vec t => .vecStart t
  | .arr k t => .fixStart (.arr k t) (List.replicate k t)
  | .set t => .setStart t
  | .map o t => .mapStart (.map o t) t
  | .dict t => .vecStart (.tuple [.prim .str, t])
  | .tuple ts => .fixStart (.tuple ts) ts
  | .cls c => if env.members c = [] then .unsupported else .objStart c
  | _ => .unsupported

/-- A value has the components of its type (see `fit`): a variable of the type has them anyway. -/
def shaped (env : Env) : Ty → Val → Val
  | .vec _, v => .seq v.elements
  | .arr k t, v => .tup (fit env (List.replicate k t) v.components)
  | .set _, v => .set v.elements
  | .map _ _, v => .map v.entries
  | .tuple ts, v => .tup (fit env ts v.components)
  | .cls c, v => if env.members c = [] then v else .obj (fitMembers env (env.members c) v.members)
  | _, v => v

/-- Construction of `JsonParser<T>(context, ref)` by the handler `f`: a pointer is set to a new object, and the
base class gets a reference to that (parse_pointer.hpp:14-41). -/
def mopen (env : Env) (f : MFrame) : Ty → Ref → Val → List Val → List MFrame → Nat →
    (Shell → Ref → List Val → List MFrame → Nat → MOut) → MOut
  | .uptr t, r, _, roots, frames, n, k =>
      assign f r (.uptr (env.ctor t)) roots frames fun roots frames =>
        mopen env f t (r.to .pointee) (env.ctor t) roots frames n k
  | .sptr t, r, _, roots, frames, n, k =>
      assign f r (.sptr n (env.ctor t)) roots frames fun roots frames =>
        mopen env f t (r.to .pointee) (env.ctor t) roots frames (n + 1) k
  | t, r, v, roots, frames, n, k =>
      assign f r (shaped env t v) roots frames fun roots frames => k (shellOf env t) r roots frames n

/-- `context.emplace<JsonParser<T>>(context, ref)` (parse_base.hpp:19-24) by the handler `f`, for an object `v`. -/
def memplace (env : Env) (host : Host) (f : MFrame) (c : HClass) (t : Ty) (r : Ref) (v : Val) (roots : List Val) (frames : List MFrame)
    (n : Nat) (k : MFrame → List Val → List MFrame → Nat → MOut) : MOut :=
  if room host (frames.map (·.cls)) c then
    mopen env f t r v roots frames n fun s r roots frames n => k ⟨c, s, r, true⟩ roots frames n
  else .threw

/-- An event delivered to the handler stack, see `pstep`. Vectors: `emplace_back`, then a handler for `back()`
(parse_vector.hpp:27-33), or `push_back` of the value (42-222). Sets: the same with the storage
(parse_set.hpp:34-41), all of which is inserted at the end (21-31), or `insert` of the value (51-231). Tuples
and arrays: parse_array.hpp:87-95. Maps: `try_emplace` (parse_map.hpp:22-30). Classes: parse_object.hpp:103-114,
139-154, 181-195; for an `optional`, `emplace` (79-84). -/
def mstep (env : Env) (host : Host) (s : MState) (e : Event) : MOut :=
  match s.stack with
  | [] => .noHandler
  | f :: rest =>
      match f.shell with
      | .vecItems t =>
          (match e with
          | .endArr => mpop s.roots f rest s.next
          | e =>
              match direct t with
              | some p =>
                  (match leafParse env p e with
                  | .ub => .ub
                  | .fail => .fail
                  | .ok pv =>
                      fetch f s.roots fun v =>
                        assign f f.ref (.seq (v.elements ++ [.prim pv])) s.roots (f :: rest) fun roots frames => .go ⟨roots, frames, s.next⟩)
              | none =>
                  if isToken t e then
                    fetch f s.roots fun v =>
                      assign f f.ref (.seq (v.elements ++ [env.ctor t])) s.roots (f :: rest) fun roots frames =>
                        memplace env host f (.parser t) t (f.ref.to (.item v.elements.length)) (env.ctor t) roots frames s.next
                          fun g roots frames n => mopenStep env host g frames roots n e
                  else .fail)
      | .setItems t storage =>
          (match e with
          | .endArr =>
              fetch f s.roots fun v =>
                match load s.roots ⟨storage, []⟩ with
                | none => .dangling
                | some w =>
                    assign f f.ref (.set (w.elements.foldl (fun s x => setInsert env.less x s) v.elements)) s.roots rest
                      fun roots rest => mpop roots f rest s.next
          | e =>
              match direct t with
              | some p =>
                  (match leafParse env p e with
                  | .ub => .ub
                  | .fail => .fail
                  | .ok pv =>
                      fetch f s.roots fun v =>
                        assign f f.ref (.set (setInsert env.less (.prim pv) v.elements)) s.roots (f :: rest)
                          fun roots frames => .go ⟨roots, frames, s.next⟩)
              | none =>
                  if isToken t e then
                    match load s.roots ⟨storage, []⟩ with
                    | none => .dangling
                    | some w =>
                        assign f ⟨storage, []⟩ (.seq (w.elements ++ [env.ctor t])) s.roots (f :: rest) fun roots frames =>
                          memplace env host f (.parser t) t ⟨storage, [.item w.elements.length]⟩ (env.ctor t) roots frames s.next
                            fun g roots frames n => mopenStep env host g frames roots n e
                  else .fail)
      | .fixItems C ts i =>
          (match ts[i]? with
          | none =>
              (match e with
              | .endArr => mpop s.roots f rest s.next
              | _ => .fail)
          | some t =>
              if e.startsValue then
                if room host (rest.map (·.cls)) (.fixed C (i + 1)) then
                  let f' := { f with cls := .fixed C (i + 1), shell := .fixItems C ts (i + 1) }
                  fetch f' s.roots fun v =>
                    memplace env host f' (.parser t) t (f.ref.to (.nth i)) (v.components.getD i (env.ctor t)) s.roots (f' :: rest) s.next
                      fun g roots frames n => mopenStep env host g frames roots n e
                else .threw
              else .fail)
      | .mapItems _ t =>
          (match e with
          | .endObj => mpop s.roots f rest s.next
          | .key k =>
              fetch f s.roots fun v =>
                let x := (v.entries.lookup k).getD (env.ctor t)
                assign f f.ref (.map (mapAssign k x v.entries)) s.roots (f :: rest) fun roots frames =>
                  memplace env host f (.parser t) t (f.ref.to (.key k)) x roots frames s.next
                    fun g roots frames n => .go ⟨roots, g :: frames, n⟩
          | _ => .fail)
      | .objItems c =>
          (match e with
          | .endObj => mpop s.roots f rest s.next
          | .key k =>
              (match selectMember env host c k with
              | .reject => .fail
              | .memoryError => .ub
              | .member i =>
                  match (env.members c)[i]? with
                  | none => .ub
                  | some m =>
                      if m.kind = .optional then
                        if room host ((f :: rest).map (·.cls)) (.optional m.ty) then
                          assign f (f.ref.to (.member i)) (.present (env.ctor m.ty)) s.roots (f :: rest) fun roots frames =>
                            memplace env host f (.optional m.ty) m.ty ((f.ref.to (.member i)).to .engaged) (env.ctor m.ty) roots frames s.next
                              fun g roots frames n => .go ⟨roots, g :: frames, n⟩
                        else .threw
                      else
                        fetch f s.roots fun v =>
                          memplace env host f (.parser m.ty) m.ty (f.ref.to (.member i)) (v.members.getD i (env.ctor m.ty)) s.roots
                            (f :: rest) s.next fun g roots frames n => .go ⟨roots, g :: frames, n⟩)
          | _ => .fail)
      | _ => mopenStep env host f rest s.roots s.next e

/-- A sequence of events. -/
def mrun (env : Env) (host : Host) : MState → List Event → MOut
  | s, [] => .go s
  | s, e :: es =>
      match mstep env host s e with
      | .go s' => mrun env host s' es
      | o => o

/-- `context.emplace<JsonParser<T>>(context, value)` (parse.hpp:14) for a variable with the value `target`, then
the events. -/
def mparse (env : Env) (host : Host) (t : Ty) (target : Val) (n : Nat) (es : List Event) : MOut :=
  memplace env host ⟨.parser t, .unsupported, ⟨0, []⟩, true⟩ (.parser t) t ⟨0, []⟩ target [target] [] n
    fun g roots frames n => mrun env host ⟨roots, g :: frames, n⟩ es

/-- `bool parse(const std::string& str, T& value)` (parse.hpp:11-31) in place: the outcome, where the value is read
from the variable afterwards. Use of an invalid reference is undefined behaviour. -/
def mparseBool (env : Env) (host : Host) (t : Ty) (feed : Feed) (target : Val) (n : Nat) : ParseBool :=
  match mparse env host t target n feed.events with
  | .go c => (match feed with | .document _ => .accepted (c.roots.headD .nullptr) | .broken _ => .rejected)
  | .fail => .rejected
  | .threw => .threw
  | .ub => .ub
  | .noHandler => .ub
  | .dangling => .ub

end Verif.Core
