import Verif.Basic

/-!
# Model of /repo/include/persistence/detail/polymorphic_stack.hpp

Addresses are offsets from `memory`; `nullptr` is `none`. Which object has been constructed at an
offset is tracked explicitly (`mem`), as is the sequence of destructor calls (`log`), so that double
destruction or destruction of something that is not an object is visible: destroying at an offset
where no object lives logs `none`.
-/

namespace Verif.PolyStack

/-- An object to be constructed: an identity, `sizeof(Class)` and `alignof(Class)`. -/
structure Obj where
  id : Nat
  size : Nat
  align : Nat
deriving DecidableEq, Repr

/-- Data members (polymorphic_stack.hpp:71-76) plus the two ghost components. -/
structure State where
  current : Option Nat
  next : Nat
  items : List (Option Nat)
  count : Nat
  mem : Nat → Option Obj
  log : List (Option Obj)

/-- Initial state (polymorphic_stack.hpp:72-76). -/
def init (capacity : Nat) : State where
  current := none
  next := 0
  items := List.replicate capacity none
  count := 0
  mem := fun _ => none
  log := []

/-- Outcome of an operation. -/
inductive Out
  | ok
  | threw
deriving DecidableEq, Repr

/-- The check at the start of `emplace` (polymorphic_stack.hpp:26). The unsigned subtraction
converted to `ptrdiff_t` is the integer `MemorySize - alignof - sizeof` (it is small enough for the
wrap-around to be undone by the conversion). -/
def exhausted (capacity memorySize : Nat) (s : State) (o : Obj) : Bool :=
  s.count ≥ capacity || (s.next : Int) ≥ (memorySize : Int) - o.align - o.size

/-- `emplace` with a constructor that returns normally (polymorphic_stack.hpp:21-38). -/
def emplace (capacity memorySize : Nat) (s : State) (o : Obj) : State × Out :=
  if exhausted capacity memorySize s o then (s, .threw)
  else
    ({ s with
        items := s.items.set s.count s.current
        count := s.count + 1
        current := some s.next
        mem := fun a => if a = s.next then some o else s.mem a
        next := s.next + o.size }, .ok)

/-- `emplace` with a constructor that throws at line 34 (polymorphic_stack.hpp:30-34): `items` and
`count` have been updated already. -/
def emplaceThrowing (capacity memorySize : Nat) (s : State) (o : Obj) : State × Out :=
  if exhausted capacity memorySize s o then (s, .threw)
  else ({ s with items := s.items.set s.count s.current, count := s.count + 1 }, .threw)

/-- `pop_unsafe` (polymorphic_stack.hpp:62-69); only called with `count > 0`. -/
def popUnsafe (s : State) : State :=
  let c := s.count - 1
  { count := c
    log := s.log ++ [s.current.bind s.mem]
    mem := fun a => if some a = s.current then none else s.mem a
    next := s.current.getD 0
    current := (s.items[c]?).getD none
    items := s.items.set c none }

/-- `pop` (polymorphic_stack.hpp:40-47). -/
def pop (s : State) : State × Out :=
  if s.count = 0 then (s, .threw) else (popUnsafe s, .ok)

/-- `back` (polymorphic_stack.hpp:49-52): the object at `current`, if there is one. -/
def back (s : State) : Option Obj := s.current.bind s.mem

/-- The destructor loop (polymorphic_stack.hpp:54-59), `k` iterations. -/
def destroyLoop : Nat → State → State
  | 0, s => s
  | k+1, s => destroyLoop k (popUnsafe s)

/-- The destructor (polymorphic_stack.hpp:54-59); every iteration decrements `count`. -/
def destroy (s : State) : State := destroyLoop s.count s

/-- Operations of a client. -/
inductive Op
  | emplace (o : Obj)
  | pop
  | emplaceThrowing (o : Obj)
deriving DecidableEq, Repr

/-- One operation. -/
def step (capacity memorySize : Nat) (s : State) : Op → State × Out
  | .emplace o => emplace capacity memorySize s o
  | .pop => pop s
  | .emplaceThrowing o => emplaceThrowing capacity memorySize s o

/-- A history of operations from the initial state, with all outcomes. -/
def run (capacity memorySize : Nat) : List Op → State → State × List Out
  | [], s => (s, [])
  | op :: ops, s =>
      let (s1, o) := step capacity memorySize s op
      let (s2, os) := run capacity memorySize ops s1
      (s2, o :: os)

end Verif.PolyStack
