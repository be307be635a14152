import Verif.Write
import Verif.Deserialize
import Verif.PerfectHash

/-!
# Model of parse.hpp and parse_*.hpp: the streaming parser

A stack of handlers receives the events of a document one by one. A handler refers to the object it fills;
here each frame of the stack carries the object it fills, and the way in which this object is part of the
object of the frame below (`Link`, `wrap`). When a frame is popped its object is put into the frame below.

What is left in the target when parsing fails is in `ParseLeft`, the error messages in `ParseError`.
-/

namespace Verif.Core
open Verif.Numeric Verif.EnumConv Verif.PerfectHash

/-! ## Numbers -/

/-- The call which `rapidjson::Reader` makes for a number (RapidJSON contract): the narrowest of `Uint`, `Int`,
`Uint64`, `Int64` for integers, `Double` for all others. For the text `-0` the call is `Int(0)`; it has the same
effect as `Uint(0)`, which is used here (see `parseNumber_classify`). -/
def classify : JsonNum → NumEvent
  | .int v =>
      if 0 ≤ v then (if v ≤ u32.max then .unsigned v else .unsigned64 v)
      else if i32.min ≤ v then .integer v else .integer64 v
  | .dbl d => .double d

/-! ## Handlers -/

/-- The handler classes, as far as they differ in size: `JsonParser<T>`, `JsonParser<std::optional<T>>`
(parse_object.hpp:79-84), `JsonArrayParser<T>` (parse_vector.hpp:14-222), `JsonSetParser<T>`
(parse_set.hpp:15-231), `JsonFixedArrayParser<C, i + 1, N>` (parse_array.hpp:20-137), `JsonMapParser<C>`
(parse_map.hpp:9-34), `JsonSoloObjectParser<C>` / `JsonPairObjectParser<C>` / `JsonObjectParser<C>`
(parse_object.hpp:87-209). -/
inductive HClass
  | parser (t : Ty)
  | optional (t : Ty)
  | vecItems (t : Ty)
  | setItems (t : Ty)
  | fixed (C : Ty) (i : Nat)
  | mapItems (C : Ty)
  | object (c : Nat)

/-- What the compiler and the static initialisation add: `sizeof` and `alignof` of the handler classes,
signedness of `char`, and the hash table of each class with three or more members (parse_object.hpp:206-207). -/
structure Host where
  size : HClass → Nat
  align : HClass → Nat
  charSigned : Bool
  table : Nat → PerfectHash.Table

/-- State of a handler and the object it refers to. `leaf`: parse_fundamental.hpp, parse_string.hpp,
parse_bytes.hpp, parse_datetime.hpp, parse_date.hpp, parse_enum.hpp. `vecStart`, `vecItems`: parse_vector.hpp
225-242 and 14-222. `setStart`, `setItems`: parse_set.hpp 234-251 and 15-231 (`storage` is the temporary vector
of the general case). `fixStart`: parse_array.hpp:102-118; `fixItems`: 20-99 for `i < ts.length` and 121-137 for
`i = ts.length`. `mapStart`, `mapItems`: parse_map.hpp 37-54 and 9-34. `objStart`, `objItems`: parse_object.hpp
225-250 and 87-209. `unsupported`: a type without `JsonParser` (variants; classes without members); programs
with such a parser do not compile. -/
inductive Handler
  | leaf (p : Prim) (v : Val)
  | vecStart (t : Ty) (vs : List Val)
  | vecItems (t : Ty) (vs : List Val)
  | setStart (t : Ty) (vs : List Val)
  | setItems (t : Ty) (storage vs : List Val)
  | fixStart (C : Ty) (ts : List Ty) (vs : List Val)
  | fixItems (C : Ty) (ts : List Ty) (i : Nat) (vs : List Val)
  | mapStart (C t : Ty) (kvs : List (Str × Val))
  | mapItems (C t : Ty) (kvs : List (Str × Val))
  | objStart (c : Nat) (vs : List Val)
  | objItems (c : Nat) (vs : List Val)
  | unsupported (v : Val)

/-- The object of a handler. -/
def Handler.value : Handler → Val
  | .leaf _ v => v
  | .vecStart _ vs => .seq vs
  | .vecItems _ vs => .seq vs
  | .setStart _ vs => .set vs
  | .setItems _ _ vs => .set vs
  | .fixStart _ _ vs => .tup vs
  | .fixItems _ _ _ vs => .tup vs
  | .mapStart _ _ kvs => .map kvs
  | .mapItems _ _ kvs => .map kvs
  | .objStart _ vs => .obj vs
  | .objItems _ vs => .obj vs
  | .unsupported v => v

/-- Elements of a vector. -/
def Val.elements : Val → List Val
  | .seq vs => vs
  | .set vs => vs
  | _ => []

/-- Entries of a map. -/
def Val.entries : Val → List (Str × Val)
  | .map kvs => kvs
  | .dict kvs => kvs
  | _ => []

/-- Components of an array or tuple, one for each type. (The list has this length anyway.) -/
def fit (env : Env) : List Ty → List Val → List Val
  | [], _ => []
  | t :: ts, vs => vs.headD (env.ctor t) :: fit env ts vs.tail

/-- Member values, one for each member. (The list has this length anyway.) -/
def fitMembers (env : Env) : List Member → List Val → List Val
  | [], _ => []
  | m :: ms, vs => vs.headD (if m.kind = .optional then .absent else env.ctor m.ty) :: fitMembers env ms vs.tail

/-- A vector of pairs as a vector. -/
def pairOf (p : Str × Val) : Val := .tup [.prim (.str p.1), p.2]

/-- Construction of `JsonParser<T>(context, ref)`: the handler, what is made of its object, and the next unused
address. Pointers are set to a new value-initialised object (parse_pointer.hpp:14-41). A vector of pairs is a
vector (`JsonParser` has no specialisation for dictionaries). -/
def openP (env : Env) : Ty → Val → Nat → Handler × (Val → Val) × Nat
  | .prim p, target, n => (.leaf p target, id, n)
  | .vec t, target, n => (.vecStart t target.elements, id, n)
  | .arr k t, target, n => (.fixStart (.arr k t) (List.replicate k t) (fit env (List.replicate k t) target.components), id, n)
  | .set t, target, n => (.setStart t target.elements, id, n)
  | .map o t, target, n => (.mapStart (.map o t) t target.entries, id, n)
  | .dict t, target, n =>
      (.vecStart (.tuple [.prim .str, t]) (target.entries.map pairOf), fun v => .dict (v.elements.map dictEntry), n)
  | .tuple ts, target, n => (.fixStart (.tuple ts) ts (fit env ts target.components), id, n)
  | .variant _, target, n => (.unsupported target, id, n)
  | .cls c, target, n =>
      if env.members c = [] then (.unsupported target, id, n)
      else (.objStart c (fitMembers env (env.members c) target.members), id, n)
  | .uptr t, _, n =>
      let (h, w, n') := openP env t (env.ctor t) n
      (h, fun v => .uptr (w v), n')
  | .sptr t, _, n =>
      let (h, w, n') := openP env t (env.ctor t) (n + 1)
      (h, fun v => .sptr n (w v), n')

/-- Outcome of a leaf handler: clock overflow (undefined), `false`, or the value stored. -/
inductive LeafParse
  | ub
  | fail
  | ok (p : PVal)
deriving DecidableEq, Repr

/-- A number stored by a number parser. -/
def ofNumVal : NumVal → PVal
  | .int v => .int v
  | .flt f => .flt f

/-- `JsonNumberParser<T>` and the numeric part of `JsonEnumParser` (parse_fundamental.hpp:52-141,
parse_enum.hpp:15-77; a `Double` event is rejected by the latter through the base class). -/
def numParse (T : NumTy) (n : JsonNum) : LeafParse :=
  match parseNumber T (classify n) with
  | some v => .ok (ofNumVal v)
  | none => .fail

/-- `parse` of a leaf handler for the token types it overrides; all other tokens fail
(parse_base.hpp:81-149). `nullptr_t` (parse_fundamental.hpp:19-24), `bool` (40-45), numbers (92-137), strings
(parse_string.hpp:16-21), bytes (parse_bytes.hpp:17-26), time stamps (parse_datetime.hpp:18-27), dates
(parse_date.hpp:21-32), enumerations (parse_enum.hpp:25-74, 89-102). -/
def leafParse (env : Env) : Prim → Event → LeafParse
  | .null, e => match e with | .null => .ok .null | _ => .fail
  | .bool, e => match e with | .bool b => .ok (.bool b) | _ => .fail
  | .int t, e => match e with | .num n => numParse (.int t) n | _ => .fail
  | .flt t, e => match e with | .num n => numParse (.flt t) n | _ => .fail
  | .enumInt t, e => match e with | .num n => numParse (.int t) n | _ => .fail
  | .str, e => match e with | .str s => .ok (.str s) | _ => .fail
  | .bytes, e =>
      match e with
      | .str s => (match Base64.decode s with | some bs => .ok (.bytes bs) | none => .fail)
      | _ => .fail
  | .time, e =>
      match e with
      | .str s =>
          (match DateTime.parseDatetime env.clk s with
          | .ok t => .ok (.time t)
          | .rejected => .fail
          | .overflow => .ub)
      | _ => .fail
  | .date, e =>
      match e with
      | .str s =>
          (match DateTime.readDate env.clk s with
          | .ok y m d => .ok (.date y m d)
          | .rejected => .fail
          | .overflow => .ub)
      | _ => .fail
  | .enumStr table, e =>
      match e with
      | .str s => (match enumValue table s with | some v => .ok (.int v) | none => .fail)
      | _ => .fail

/-- The handler of an enumeration with names does not pop itself (parse_enum.hpp:89-102). -/
def Prim.stays : Prim → Bool
  | .enumStr _ => true
  | _ => false

/-- Element types with a `JsonArrayParser` / `JsonSetParser` of their own, which stores elements without a
handler of their own: `bool`, `short` … `long long`, `float`, `double`, `std::string` (parse_vector.hpp:42-222,
parse_set.hpp:51-231). The character types use the general template. -/
def direct : Ty → Option Prim
  | .prim .bool => some .bool
  | .prim (.int t) => if t.width = .w8 then none else some (.int t)
  | .prim (.flt t) => some (.flt t)
  | .prim .str => some .str
  | _ => none

/-- The event is of the token type `JsonParser<T>::json_type`, the only one that the general
`JsonArrayParser` / `JsonSetParser` overrides besides `JsonArrayEnd` (parse_vector.hpp:28-34,
parse_set.hpp:34-41). For numbers it is `JsonValueNumber`, which is never delivered (parse.hpp:18-20);
pointers inherit it (parse_pointer.hpp:14, 29). -/
def isToken : Ty → Event → Bool
  | .prim .null, e => match e with | .null => true | _ => false
  | .prim .bool, e => match e with | .bool _ => true | _ => false
  | .prim (.int _), _ => false
  | .prim (.flt _), _ => false
  | .prim (.enumInt _), _ => false
  | .prim _, e => match e with | .str _ => true | _ => false
  | .vec _, e => match e with | .startArr => true | _ => false
  | .arr _ _, e => match e with | .startArr => true | _ => false
  | .set _, e => match e with | .startArr => true | _ => false
  | .dict _, e => match e with | .startArr => true | _ => false
  | .tuple _, e => match e with | .startArr => true | _ => false
  | .map _ _, e => match e with | .startObj => true | _ => false
  | .cls _, e => match e with | .startObj => true | _ => false
  | .variant _, _ => false
  | .uptr t, e => isToken t e
  | .sptr t, e => isToken t e

/-- The token types overridden by `JsonFixedArrayParser` (parse_array.hpp:32-85): all that start a value. -/
def Event.startsValue : Event → Bool
  | .null | .bool _ | .num _ | .str _ | .startArr | .startObj => true
  | .key _ | .endObj | .endArr => false

/-! ## The stack -/

/-- Where the object of a frame is, relative to the object of the frame below: the variable passed to `parse`,
the new last element of a vector or of the storage of a set, component `i`, the value of a key, member `i`. -/
inductive Link
  | root
  | item
  | nth (i : Nat)
  | key (k : Str)
  | member (i : Nat)

/-- A handler on the stack. -/
structure Frame where
  cls : HClass
  handler : Handler
  link : Link
  wrap : Val → Val

/-- Put a finished object into the object of the handler below. -/
def plug : Handler → Link → Val → Handler
  | .vecItems t vs, .item, v => .vecItems t (vs ++ [v])
  | .setItems t storage vs, .item, v => .setItems t (storage ++ [v]) vs
  | .fixItems C ts i vs, .nth k, v => .fixItems C ts i (vs.set k v)
  | .mapItems C t kvs, .key k, v => .mapItems C t (mapAssign k v kvs)
  | .objItems c vs, .member i, v => .objItems c (vs.set i v)
  | h, _, _ => h

/-- `ReaderContext::stack` (parse_base.hpp:56), the object of the root handler once that is popped, and the
next unused address. -/
structure PState where
  stack : List Frame
  finished : Option Val
  next : Nat

/-- Outcome of an event: `true`, `false`, the exception `std::out_of_range` of the handler stack, undefined
behaviour of a handler, or a call through the null pointer `dispatcher.handler`. -/
inductive POut
  | go (s : PState)
  | fail
  | threw
  | ub
  | noHandler

/-- Total size of the handlers. -/
def used (host : Host) : List HClass → Nat
  | [] => 0
  | c :: K => host.size c + used host K

/-- `PolymorphicStack::emplace` does not throw (polymorphic_stack.hpp:26) when the handlers `K` are on the stack. -/
def room (host : Host) (K : List HClass) (c : HClass) : Bool :=
  decide (K.length < 128) && decide ((used host K : Int) < 4096 - host.align c - host.size c)

/-- `ReaderContext::pop` (parse_base.hpp:26-30): the object of the handler is complete. -/
def popTo (wrap : Val → Val) (link : Link) (v : Val) (rest : List Frame) (fin : Option Val) (n : Nat) : PState :=
  match rest with
  | [] => ⟨[], some (wrap v), n⟩
  | p :: rest => ⟨{ p with handler := plug p.handler link (wrap v) } :: rest, fin, n⟩

/-- `ReaderContext::replace` (parse_base.hpp:33-37): pop, then `emplace`. -/
def replaceTop (host : Host) (f : Frame) (rest : List Frame) (fin : Option Val) (n : Nat) (c : HClass) (h : Handler) : POut :=
  if room host (rest.map (·.cls)) c then .go ⟨{ f with cls := c, handler := h } :: rest, fin, n⟩ else .threw

/-- An event delivered to a `JsonParser<T>` that is the top `f` of the stack: leaves as in `leafParse`, then
`pop`, except enumerations with names; containers expect their opening token and are replaced by the handler of
their items (parse_vector.hpp:235-239, parse_set.hpp:244-248, parse_array.hpp:109-113, parse_map.hpp:46-50,
parse_object.hpp:236-246). All other tokens fail. -/
def openStep (env : Env) (host : Host) (f : Frame) (rest : List Frame) (fin : Option Val) (n : Nat) (e : Event) : POut :=
  match f.handler with
  | .leaf p _ =>
      match leafParse env p e with
      | .ub => .ub
      | .fail => .fail
      | .ok pv =>
          if p.stays then .go ⟨{ f with handler := .leaf p (.prim pv) } :: rest, fin, n⟩
          else .go (popTo f.wrap f.link (.prim pv) rest fin n)
  | .vecStart t vs => match e with | .startArr => replaceTop host f rest fin n (.vecItems t) (.vecItems t vs) | _ => .fail
  | .setStart t vs => match e with | .startArr => replaceTop host f rest fin n (.setItems t) (.setItems t [] vs) | _ => .fail
  | .fixStart C ts vs => match e with | .startArr => replaceTop host f rest fin n (.fixed C 0) (.fixItems C ts 0 vs) | _ => .fail
  | .mapStart C t kvs => match e with | .startObj => replaceTop host f rest fin n (.mapItems C) (.mapItems C t kvs) | _ => .fail
  | .objStart c vs => match e with | .startObj => replaceTop host f rest fin n (.object c) (.objItems c vs) | _ => .fail
  | _ => .fail

/-- `context.emplace<JsonParser<T>>(context, ref)` on top of `rest`: no exception, then the new frame. -/
def emplaceP (env : Env) (host : Host) (rest : List Frame) (n : Nat) (c : HClass) (t : Ty) (target : Val)
    (link : Link) (outer : Val → Val) (k : Frame → Nat → POut) : POut :=
  if room host (rest.map (·.cls)) c then
    match openP env t target n with
    | (h, w, n') => k ⟨c, h, link, fun v => outer (w v)⟩ n'
  else .threw

/-- The member that a key selects (parse_object.hpp:103-114, 139-154, 181-195, see `PerfectHash.dispatch`). -/
def selectMember (env : Env) (host : Host) (c : Nat) (k : Str) : Dispatch :=
  dispatch host.charSigned (host.table c) ((env.members c).map (·.name)) k

/-- An event delivered to the handler stack: the top handler gets it (parse_event.hpp:136-206). -/
def pstep (env : Env) (host : Host) (s : PState) (e : Event) : POut :=
  match s.stack with
  | [] => .noHandler
  | f :: rest =>
      match f.handler with
      | .vecItems t vs =>
          (match e with
          | .endArr => .go (popTo f.wrap f.link (.seq vs) rest s.finished s.next)
          | e =>
              match direct t with
              | some p =>
                  (match leafParse env p e with
                  | .ub => .ub
                  | .fail => .fail
                  | .ok pv => .go { s with stack := { f with handler := .vecItems t (vs ++ [.prim pv]) } :: rest })
              | none =>
                  if isToken t e then
                    emplaceP env host (f :: rest) s.next (.parser t) t (env.ctor t) .item id fun g n =>
                      openStep env host g (f :: rest) s.finished n e
                  else .fail)
      | .setItems t storage vs =>
          (match e with
          | .endArr =>
              .go (popTo f.wrap f.link (.set (storage.foldl (fun s v => setInsert env.less v s) vs)) rest s.finished s.next)
          | e =>
              match direct t with
              | some p =>
                  (match leafParse env p e with
                  | .ub => .ub
                  | .fail => .fail
                  | .ok pv => .go { s with stack := { f with handler := .setItems t storage (setInsert env.less (.prim pv) vs) } :: rest })
              | none =>
                  if isToken t e then
                    emplaceP env host (f :: rest) s.next (.parser t) t (env.ctor t) .item id fun g n =>
                      openStep env host g (f :: rest) s.finished n e
                  else .fail)
      | .fixItems C ts i vs =>
          (match ts[i]? with
          | none =>
              (match e with
              | .endArr => .go (popTo f.wrap f.link (.tup vs) rest s.finished s.next)
              | _ => .fail)
          | some t =>
              if e.startsValue then
                if room host (rest.map (·.cls)) (.fixed C (i + 1)) then
                  let f' := { f with cls := .fixed C (i + 1), handler := .fixItems C ts (i + 1) vs }
                  emplaceP env host (f' :: rest) s.next (.parser t) t (vs.getD i (env.ctor t)) (.nth i) id fun g n =>
                    openStep env host g (f' :: rest) s.finished n e
                else .threw
              else .fail)
      | .mapItems _ t kvs =>
          (match e with
          | .endObj => .go (popTo f.wrap f.link (.map kvs) rest s.finished s.next)
          | .key k =>
              emplaceP env host (f :: rest) s.next (.parser t) t ((kvs.lookup k).getD (env.ctor t)) (.key k) id fun g n =>
                .go ⟨g :: f :: rest, s.finished, n⟩
          | _ => .fail)
      | .objItems c vs =>
          (match e with
          | .endObj => .go (popTo f.wrap f.link (.obj vs) rest s.finished s.next)
          | .key k =>
              (match selectMember env host c k with
              | .reject => .fail
              | .memoryError => .ub
              | .member i =>
                  match (env.members c)[i]? with
                  | none => .ub
                  | some m =>
                      if m.kind = .optional then
                        emplaceP env host (f :: rest) s.next (.optional m.ty) m.ty (env.ctor m.ty) (.member i) .present
                          fun g n => .go ⟨g :: f :: rest, s.finished, n⟩
                      else
                        emplaceP env host (f :: rest) s.next (.parser m.ty) m.ty (vs.getD i (env.ctor m.ty)) (.member i) id
                          fun g n => .go ⟨g :: f :: rest, s.finished, n⟩)
          | _ => .fail)
      | _ => openStep env host f rest s.finished s.next e

/-- A sequence of events; `rapidjson::Reader` stops at the first one that is refused. -/
def prun (env : Env) (host : Host) : PState → List Event → POut
  | s, [] => .go s
  | s, e :: es =>
      match pstep env host s e with
      | .go s' => prun env host s' es
      | .fail => .fail
      | .threw => .threw
      | .ub => .ub
      | .noHandler => .noHandler

/-- The bottom frame with all objects above put into it. -/
def collapse (f : Frame) (rest : List Frame) : Frame :=
  rest.foldl (fun g p => { p with handler := plug p.handler g.link (g.wrap g.handler.value) }) f

/-- The variable passed to `parse`. -/
def PState.target (s : PState) : Val :=
  match s.stack with
  | [] => s.finished.getD .nullptr
  | f :: rest => let g := collapse f rest; g.wrap g.handler.value

/-- What `rapidjson::Reader` does with a text (RapidJSON contract): it reports a document and ends without
error, or it reports some first part of the events of a document and stops with a syntax error. -/
inductive Feed
  | document (j : Json)
  | broken (es : List Event)

/-- The events. -/
def Feed.events : Feed → List Event
  | .document j => Verif.Core.events j
  | .broken es => es

/-- Outcome of `bool parse(const std::string&, T&)`: the returned value, with the target when it is `true`; an
exception; undefined behaviour. -/
inductive ParseBool
  | accepted (v : Val)
  | rejected
  | threw
  | ub

/-- The state after `context.emplace<JsonParser<T>>(context, value)` (parse.hpp:14). -/
def start (env : Env) (t : Ty) (target : Val) (n : Nat) : PState :=
  match openP env t target n with
  | (h, w, n') => ⟨[⟨.parser t, h, .root, w⟩], none, n'⟩

/-- `bool parse(const std::string& str, T& value)` (parse.hpp:11-31). -/
def parseBool (env : Env) (host : Host) (t : Ty) (feed : Feed) (target : Val) (n : Nat) : ParseBool :=
  if room host [] (.parser t) then
    match prun env host (start env t target n) feed.events with
    | .go s => (match feed with | .document _ => .accepted s.target | .broken _ => .rejected)
    | .fail => .rejected
    | .threw => .threw
    | .ub => .ub
    | .noHandler => .ub
  else .threw

/-- Outcome of `T parse(const std::string&)`: a `JsonParseError`, the exception of the handler stack, the value. -/
inductive ParseThrow
  | returned (v : Val)
  | parseError
  | threw
  | ub

/-- `T parse(const std::string& str)` (parse.hpp:33-50): the same steps with a local variable `T obj;`. -/
def parseThrow (env : Env) (host : Host) (t : Ty) (feed : Feed) (n : Nat) : ParseThrow :=
  match parseBool env host t feed (env.fresh t) n with
  | .accepted v => .returned v
  | .rejected => .parseError
  | .threw => .threw
  | .ub => .ub

end Verif.Core
