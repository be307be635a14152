import Verif.Basic

/-!
# Model of /repo/include/persistence/base64.hpp

All of the file's logic is modelled. `std::size_t`/`std::uint64_t` values are natural numbers: the
only operations applied to them are right shifts, masks, and left shifts by at most four bits of
masked values, none of which can exceed 64 bits, so `Nat` arithmetic is exact.
-/

namespace Verif.Base64

/-- Byte order of the host, `detail::endianness` (base64.hpp:9-21). -/
inductive Endian
  | little
  | big
deriving DecidableEq, Repr

/-- `detail::encode_table` (base64.hpp:23-28). -/
def encodeTable : List UInt8 :=
  [65, 66, 67, 68, 69, 70, 71, 72, 73, 74, 75, 76, 77, 78, 79, 80,
   81, 82, 83, 84, 85, 86, 87, 88, 89, 90, 97, 98, 99, 100, 101, 102,
   103, 104, 105, 106, 107, 108, 109, 110, 111, 112, 113, 114, 115, 116, 117, 118,
   119, 120, 121, 122, 48, 49, 50, 51, 52, 53, 54, 55, 56, 57, 43, 47]

/-- `encode_table[i]` (base64.hpp:44-47). An index outside the table would be an out-of-bounds
access; `encode_reads_in_table` in `Props/Base64` shows that no such index is ever used. -/
def enc (i : Nat) : UInt8 := encodeTable.getD i 0

/-- Table indices used by `detail::encode_triplet` (base64.hpp:38-48). -/
def tripletIdx (a b c : Nat) : List Nat :=
  [a >>> 2,
   ((a &&& 3) <<< 4) ||| (b >>> 4),
   ((b &&& 15) <<< 2) ||| (c >>> 6),
   c &&& 63]

/-- `detail::encode_triplet` (base64.hpp:38-48). -/
def encodeTriplet (a b c : UInt8) : Str := (tripletIdx a.toNat b.toNat c.toNat).map enc

/-- Table indices used by `detail::encode_sextet_big_endian` (base64.hpp:56-66). -/
def bigIdx (v : Nat) : List Nat :=
  [(v >>> 58) &&& 0x3F, (v >>> 52) &&& 0x3F, (v >>> 46) &&& 0x3F, (v >>> 40) &&& 0x3F,
   (v >>> 34) &&& 0x3F, (v >>> 28) &&& 0x3F, (v >>> 22) &&& 0x3F, (v >>> 16) &&& 0x3F]

/-- Table indices used by `detail::encode_sextet_little_endian` (base64.hpp:74-84). -/
def littleIdx (v : Nat) : List Nat :=
  [(v >>> 2) &&& 63,
   ((v &&& 3) <<< 4) ||| ((v >>> 12) &&& 15),
   (((v >>> 8) &&& 15) <<< 2) ||| ((v >>> 22) &&& 3),
   (v >>> 16) &&& 63,
   (v >>> 26) &&& 63,
   (((v >>> 24) &&& 3) <<< 4) ||| ((v >>> 36) &&& 15),
   (((v >>> 32) &&& 15) <<< 2) ||| ((v >>> 46) &&& 3),
   (v >>> 40) &&& 63]

/-- Memory as seen through `input.data()`: offset to byte. Offsets at or beyond the size of the
input are whatever happens to lie behind the buffer. -/
abbrev Mem := Nat → UInt8

/-- `*reinterpret_cast<const uint64_t*>(p)` (base64.hpp:116): eight bytes starting at offset `p`,
composed in the host's byte order. -/
def load64 (e : Endian) (m : Mem) (p : Nat) : Nat :=
  match e with
  | .little =>
      (m p).toNat + 2^8 * (m (p+1)).toNat + 2^16 * (m (p+2)).toNat + 2^24 * (m (p+3)).toNat
        + 2^32 * (m (p+4)).toNat + 2^40 * (m (p+5)).toNat + 2^48 * (m (p+6)).toNat
        + 2^56 * (m (p+7)).toNat
  | .big =>
      2^56 * (m p).toNat + 2^48 * (m (p+1)).toNat + 2^40 * (m (p+2)).toNat
        + 2^32 * (m (p+3)).toNat + 2^24 * (m (p+4)).toNat + 2^16 * (m (p+5)).toNat
        + 2^8 * (m (p+6)).toNat + (m (p+7)).toNat

/-- Characters produced and offsets read. -/
structure Trace where
  out : Str
  reads : List Nat

/-- Sequential composition of two program parts. -/
def Trace.append (s t : Trace) : Trace := ⟨s.out ++ t.out, s.reads ++ t.reads⟩

/-- `encode_sextet_*` selected by the host byte order (base64.hpp:117-121). -/
def sextetIdx (e : Endian) (v : Nat) : List Nat :=
  match e with
  | .little => littleIdx v
  | .big => bigIdx v

/-- The word-at-a-time loop (base64.hpp:115-124): `k` iterations from offset `p`. -/
def fastLoop (e : Endian) (m : Mem) : Nat → Nat → Trace
  | 0, _ => ⟨[], []⟩
  | k+1, p =>
      Trace.append
        ⟨(sextetIdx e (load64 e m p)).map enc, [p, p+1, p+2, p+3, p+4, p+5, p+6, p+7]⟩
        (fastLoop e m k (p + 6))

/-- The triplet loop (base64.hpp:127-133): `k` iterations from offset `p`. -/
def tripletLoop (m : Mem) : Nat → Nat → Trace
  | 0, _ => ⟨[], []⟩
  | k+1, p =>
      Trace.append ⟨encodeTriplet (m p) (m (p+1)) (m (p+2)), [p, p+1, p+2]⟩
        (tripletLoop m k (p + 3))

/-- The incomplete last triplet (base64.hpp:136-147). The output buffer is written with four
characters and then the last one or two are overwritten by `'='` (61). -/
def lastPart (m : Mem) (n : Nat) : Trace :=
  if n % 3 = 2 then
    ⟨(encodeTriplet (m (n-2)) (m (n-1)) 0).take 3 ++ [61], [n-2, n-1]⟩
  else if n % 3 = 1 then
    ⟨(encodeTriplet (m (n-1)) 0 0).take 2 ++ [61, 61], [n-1]⟩
  else ⟨[], []⟩

/-- `base64_encode(const byte_view&, std::string&)` (base64.hpp:94-150) on a buffer of `n` bytes. -/
def encodeMem (e : Endian) (m : Mem) (n : Nat) : Trace :=
  if n = 0 then ⟨[], []⟩
  else
    let fastSextets := n / 24 * 4
    let fullTriplets := n / 3
    let remainingTriplets := fullTriplets - fastSextets * 2
    Trace.append (fastLoop e m fastSextets 0)
      (Trace.append (tripletLoop m remainingTriplets (fastSextets * 6)) (lastPart m n))

/-- Memory holding the bytes `bs` followed by arbitrary foreign bytes. -/
def memOf (bs : Str) (foreign : Mem) : Mem := fun k => (bs[k]?).getD (foreign k)

/-- The encoder applied to a byte sequence; `foreign` is the memory behind the buffer
(base64.hpp:94-183, all overloads forward to the first one). -/
def encode (e : Endian) (foreign : Mem) (bs : Str) : Str :=
  (encodeMem e (memOf bs foreign) bs.length).out

/-- `detail::decode_table` (base64.hpp:190-207), given by its 16-byte rows 2 to 7; all other
entries are 0xFF. -/
def decodeTable : List Nat :=
  List.replicate 43 0xFF ++ [0x3E] ++ List.replicate 3 0xFF ++ [0x3F]
  ++ [0x34, 0x35, 0x36, 0x37, 0x38, 0x39, 0x3A, 0x3B, 0x3C, 0x3D] ++ List.replicate 6 0xFF
  ++ [0xFF, 0x00, 0x01, 0x02, 0x03, 0x04, 0x05, 0x06, 0x07, 0x08, 0x09, 0x0A, 0x0B, 0x0C, 0x0D, 0x0E,
      0x0F, 0x10, 0x11, 0x12, 0x13, 0x14, 0x15, 0x16, 0x17, 0x18, 0x19] ++ List.replicate 5 0xFF
  ++ [0xFF, 0x1A, 0x1B, 0x1C, 0x1D, 0x1E, 0x1F, 0x20, 0x21, 0x22, 0x23, 0x24, 0x25, 0x26, 0x27, 0x28,
      0x29, 0x2A, 0x2B, 0x2C, 0x2D, 0x2E, 0x2F, 0x30, 0x31, 0x32, 0x33] ++ List.replicate 5 0xFF
  ++ List.replicate 128 0xFF

/-- `decode_table[c]`; every `unsigned char` is a valid index (`decodeTable_length`). -/
def dec (c : UInt8) : Nat := decodeTable.getD c.toNat 0

/-- `detail::decode_quadruplet` (base64.hpp:218-233): `none` is the return value `false`.
The conversion to `std::byte` keeps the low eight bits. -/
def decodeQuad (a b c d : UInt8) : Option Str :=
  if (dec a ||| dec b ||| dec c ||| dec d) &&& 0xC0 ≠ 0 then none
  else some
    [UInt8.ofNat ((dec a <<< 2) ||| (dec b >>> 4)),
     UInt8.ofNat (((dec b &&& 15) <<< 4) ||| (dec c >>> 2)),
     UInt8.ofNat (((dec c &&& 3) <<< 6) ||| dec d)]

/-- The last quadruplet (base64.hpp:277-318); `pop_back` removes the last byte(s) of the output. -/
def decodeLast (a b c d : UInt8) : Option Str :=
  if c = 61 then
    if d ≠ 61 then none
    else (decodeQuad a b 65 65).map (·.take 1)
  else if d = 61 then (decodeQuad a b c 65).map (·.take 2)
  else decodeQuad a b c d

/-- The loop over quadruplets followed by the last one (base64.hpp:261-320). -/
def decodeLoop : Str → Option Str
  | [a, b, c, d] => decodeLast a b c d
  | a :: b :: c :: d :: rest =>
      match decodeQuad a b c d with
      | none => none
      | some o => (decodeLoop rest).map (o ++ ·)
  | _ => none

/-- `base64_decode` (base64.hpp:243-321): `none` is the return value `false`. -/
def decode (s : Str) : Option Str :=
  if s.length = 0 then some []
  else if s.length % 4 ≠ 0 then none
  else decodeLoop s

/-- What the same loop has written to the output buffer when it returns, also with `false`
(base64.hpp:254-320): the buffer starts as zeros (`output.resize`, base64.hpp:255), a quadruplet
that is refused writes nothing (base64.hpp:218-233) and ends the loop. -/
def decodeLoopOut : Str → Str
  | [a, b, c, d] => (decodeLast a b c d).getD [0, 0, 0]
  | a :: b :: c :: d :: rest =>
      match decodeQuad a b c d with
      | none => List.replicate (3 * (rest.length / 4 + 1)) 0
      | some o => o ++ decodeLoopOut rest
  | _ => []

/-- The argument `output` after `base64_decode` (base64.hpp:243-321), whatever is returned:
`output.clear()` is first (base64.hpp:247), before the length is checked (base64.hpp:252). -/
def decodeOut (s : Str) : Str :=
  if s.length = 0 then []
  else if s.length % 4 ≠ 0 then []
  else decodeLoopOut s

end Verif.Base64
