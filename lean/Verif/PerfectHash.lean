import Verif.BitSet

/-!
# Model of /repo/include/persistence/detail/perfect_hash.hpp (64-bit `std::size_t`)

`hash_t` values are natural numbers below `2^64`; wrap-around arithmetic is written as `% 2^64`.
-/

namespace Verif.PerfectHash

/-- Conversion of a `char` to `hash_t` in `d ^= str[i]` (perfect_hash.hpp:37): sign extension when
plain `char` is signed (`cs = true`, x86), zero extension otherwise. -/
def ext (cs : Bool) (c : UInt8) : Nat :=
  if cs && c.toNat ≥ 128 then c.toNat + (2^64 - 256) else c.toNat

/-- One round of the loop (perfect_hash.hpp:33-38). -/
def hashStep (cs : Bool) (d : Nat) (c : UInt8) : Nat :=
  ((d + (d <<< 1 + d <<< 4 + d <<< 5 + d <<< 7 + d <<< 8 + d <<< 40)) % 2^64) ^^^ ext cs c

/-- `detail::hash`, 64-bit branch (perfect_hash.hpp:12-41). -/
def hash (cs : Bool) (d : Nat) (str : Str) : Nat :=
  (str.foldl (hashStep cs) (if d = 0 then 0xcbf29ce484222325 else d)) &&& 0x7fffffffffffffff

/-- The two arrays (perfect_hash.hpp:174-176). -/
structure Table where
  indexMap : List Nat
  G : List Nat
deriving DecidableEq, Repr

/-- How the construction can end: normally, by a thrown `std::out_of_range` of a `BitSet` function, or
not at all (the search for a seed was cut off after `fuel` rounds). -/
inductive Result (α : Type)
  | ok (a : α)
  | thrown
  | outOfFuel
deriving DecidableEq, Repr

/-- Sequencing of program parts. -/
def Result.bind {α β : Type} (r : Result α) (f : α → Result β) : Result β :=
  match r with
  | .ok a => f a
  | .thrown => .thrown
  | .outOfFuel => .outOfFuel

/-- A call of a `BitSet` function that may throw. -/
def orThrow {α : Type} : Option α → Result α
  | some a => .ok a
  | none => .thrown

/-- The loop of `is_distributable` (perfect_hash.hpp:158-172) over item positions `ks`.
The hash function is a parameter: `h d k` stands for `hash(d, items[k])`. -/
def distributable (h : Nat → Nat → Nat) (n d : Nat) (mask : BitSet) : List Nat → BitSet → Bool
  | [], _ => true
  | k :: ks, taken =>
      if !mask.get k then distributable h n d mask ks taken
      else
        let key := h d k % n
        if taken.get key then false
        else distributable h n d mask ks (taken.set key)

/-- `is_distributable` (perfect_hash.hpp:158-172); `n` is `Size`. -/
def isDistributable (h : Nat → Nat → Nat) (n d : Nat) (mask taken : BitSet) : Bool :=
  distributable h n d mask (List.range n) taken

/-- `scatter` (perfect_hash.hpp:140-147): the search from seed `d`, cut off after `fuel` seeds.
(The C++ loop has no cut-off; seeds wrap around at `2^64`, which is beyond every fuel considered.) -/
def scatterFrom (h : Nat → Nat → Nat) (n : Nat) (mask taken : BitSet) : Nat → Nat → Result Nat
  | 0, _ => .outOfFuel
  | fuel+1, d =>
      if isDistributable h n d mask taken then .ok d
      else scatterFrom h n mask taken fuel (d + 1)

/-- Working state of the constructor. -/
structure State where
  taken : BitSet
  table : Table
deriving DecidableEq, Repr

/-- Buckets (perfect_hash.hpp:83-87). -/
def buckets (h : Nat → Nat → Nat) (n : Nat) : List BitSet :=
  (List.range n).foldl (fun bs k => bs.modify (h 0 k % n) (·.set k))
    (List.replicate n (BitSet.empty n))

/-- `buckets[i]`. -/
def bucket (bs : List BitSet) (i : Nat) : BitSet := (bs[i]?).getD []

/-- Assigning the items of a bucket to slots (perfect_hash.hpp:102-110), `ks` are the values of the
loop variable `k` still to be processed. -/
def placeItems (h : Nat → Nat → Nat) (n d : Nat) (b : BitSet) : List Nat → State → Result State
  | [], st => .ok st
  | k :: ks, st =>
      (orThrow (b.pick k)).bind fun item =>
        let index := h d item % n
        placeItems h n d b ks
          { taken := st.taken.set index
            table := { st.table with indexMap := st.table.indexMap.set index item } }

/-- Body of the loop over buckets with at least two items (perfect_hash.hpp:93-110). -/
def processBucket (h : Nat → Nat → Nat) (n fuel : Nat) (bs : List BitSet) (count i : Nat)
    (st : State) : Result State :=
  let b := bucket bs i
  if b.count ≠ count then .ok st
  else
    (scatterFrom h n b st.taken fuel 1).bind fun d =>
      (orThrow b.firstSet).bind fun first =>
        placeItems h n d b (List.range count)
          { st with table := { st.table with G := st.table.G.set (h 0 first % n) d } }

/-- Inner loop (perfect_hash.hpp:92-111) over the bucket numbers `is`. -/
def processBuckets (h : Nat → Nat → Nat) (n fuel : Nat) (bs : List BitSet) (count : Nat) :
    List Nat → State → Result State
  | [], st => .ok st
  | i :: is, st => (processBucket h n fuel bs count i st).bind (processBuckets h n fuel bs count is)

/-- Outer loop (perfect_hash.hpp:91-112), `count` running down to 2. -/
def processCounts (h : Nat → Nat → Nat) (n fuel : Nat) (bs : List BitSet) : Nat → State → Result State
  | 0, st => .ok st
  | 1, st => .ok st
  | count+2, st =>
      (processBuckets h n fuel bs (count + 2) (List.range n) st).bind
        (processCounts h n fuel bs (count + 1))

/-- Buckets with exactly one item (perfect_hash.hpp:115-128). -/
def processSingles (h : Nat → Nat → Nat) (n : Nat) (bs : List BitSet) : List Nat → State → Result State
  | [], st => .ok st
  | i :: is, st =>
      let b := bucket bs i
      if b.count = 1 then
        (orThrow b.firstSet).bind fun item =>
          (orThrow st.taken.firstUnset).bind fun index =>
            processSingles h n bs is
              { taken := st.taken.set index
                table :=
                  { G := st.table.G.set (h 0 item % n) (2^64 - 1 - index)
                    indexMap := st.table.indexMap.set index item } }
      else processSingles h n bs is st

/-- The constructor (perfect_hash.hpp:77-129) for `n` items with hash function `h`. -/
def buildWith (h : Nat → Nat → Nat) (n fuel : Nat) : Result Table :=
  let bs := buckets h n
  let st0 : State :=
    { taken := BitSet.empty n
      table := { indexMap := List.replicate n 0, G := List.replicate n 0 } }
  ((processCounts h n fuel bs n st0).bind (processSingles h n bs (List.range n))).bind
    fun st => .ok st.table

/-- `hash(d, items[k])`. -/
def itemHash (cs : Bool) (items : List Str) (d k : Nat) : Nat := hash cs d ((items[k]?).getD [])

/-- The constructor applied to an array of names (perfect_hash.hpp:48-54, 77-129). -/
def build (cs : Bool) (items : List Str) (fuel : Nat) : Result Table :=
  buildWith (itemHash cs items) items.length fuel

/-- `index` (perfect_hash.hpp:62-74) with the hash function abstracted: `hk d` is `hash(d, key)`.
`none` stands for an access outside one of the arrays. -/
def indexWith (t : Table) (n : Nat) (hk : Nat → Nat) : Option Nat :=
  match t.G[hk 0 % n]? with
  | none => none
  | some d =>
      if d ≥ 2^63 then t.indexMap[2^64 - 1 - d]?
      else t.indexMap[hk d % n]?

/-- `index` (perfect_hash.hpp:62-74). -/
def index (cs : Bool) (t : Table) (n : Nat) (key : Str) : Option Nat :=
  indexWith t n fun d => hash cs d key

/-! ### key dispatch of the object parsers -/

/-- What a key event selects: a member position, a rejection, or a memory error. -/
inductive Dispatch
  | member (k : Nat)
  | reject
  | memoryError
deriving DecidableEq, Repr

/-- `JsonSoloObjectParser::parse(JsonObjectKey)` (parse_object.hpp:103-114). -/
def dispatchSolo (name key : Str) : Dispatch :=
  if name ≠ key then .reject else .member 0

/-- `JsonPairObjectParser::parse(JsonObjectKey)` (parse_object.hpp:139-154). -/
def dispatchPair (first second key : Str) : Dispatch :=
  if key = first then .member 0
  else if key = second then .member 1
  else .reject

/-- `JsonObjectParser::parse(JsonObjectKey)` (parse_object.hpp:181-195). -/
def dispatchHash (cs : Bool) (t : Table) (names : List Str) (key : Str) : Dispatch :=
  match index cs t names.length key with
  | none => .memoryError
  | some k =>
      match names[k]? with
      | none => .memoryError
      | some nm => if nm ≠ key then .reject else .member k

/-- Selection of the key handler by the number of members (parse_object.hpp:236-246); the table is
the static member built before `main` (parse_object.hpp:206-207), `none` if it is not available. -/
def dispatch (cs : Bool) (t : Table) (names : List Str) (key : Str) : Dispatch :=
  match names with
  | [a] => dispatchSolo a key
  | [a, b] => dispatchPair a b key
  | names => dispatchHash cs t names key

end Verif.PerfectHash
