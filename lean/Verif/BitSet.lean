import Verif.Basic

/-!
# Model of /repo/include/persistence/detail/bitset.hpp

`std::array<bool, N>` is a list of `N` booleans. The loops of the C++ functions scan positions
`0, 1, …, N-1`; the model scans the list. A thrown `std::out_of_range` is `none`. An index beyond the
array would be undefined behaviour for `get`/`set`; the model's `get` then yields `false` and `set`
does nothing, and the theorems about the perfect hash (`C20_*`) establish that the indices are in range.
-/

namespace Verif

/-- `BitSet<N>` (bitset.hpp:11-15). -/
abbrev BitSet := List Bool

namespace BitSet

/-- `values = { false }` (bitset.hpp:14). -/
def empty (n : Nat) : BitSet := List.replicate n false

/-- `count` (bitset.hpp:17-26). -/
def count (b : BitSet) : Nat := b.foldl (fun c v => if v then c + 1 else c) 0

/-- `get` (bitset.hpp:29-32). -/
def get (b : BitSet) (k : Nat) : Bool := (b[k]?).getD false

/-- `set` (bitset.hpp:35-38). -/
def set (b : BitSet) (k : Nat) : BitSet := List.set b k true

/-- The scan of `first_set` from position `k` on (bitset.hpp:41-49). -/
def firstSetFrom : BitSet → Nat → Option Nat
  | [], _ => none
  | v :: vs, k => if v then some k else firstSetFrom vs (k + 1)

/-- `first_set` (bitset.hpp:41-49). -/
def firstSet (b : BitSet) : Option Nat := firstSetFrom b 0

/-- The scan of `first_unset` from position `k` on (bitset.hpp:52-60). -/
def firstUnsetFrom : BitSet → Nat → Option Nat
  | [], _ => none
  | v :: vs, k => if !v then some k else firstUnsetFrom vs (k + 1)

/-- `first_unset` (bitset.hpp:52-60). -/
def firstUnset (b : BitSet) : Option Nat := firstUnsetFrom b 0

/-- The scan of `pick`: position `k`, `i` non-zero bits seen so far (bitset.hpp:66-78). -/
def pickFrom (index : Nat) : BitSet → Nat → Nat → Option Nat
  | [], _, _ => none
  | v :: vs, k, i =>
      if v then (if i = index then some k else pickFrom index vs (k + 1) (i + 1))
      else pickFrom index vs (k + 1) i

/-- `pick` (bitset.hpp:66-78). -/
def pick (b : BitSet) (index : Nat) : Option Nat := pickFrom index b 0 0

end BitSet
end Verif
