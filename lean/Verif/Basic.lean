/-!
# Shared notions

Byte strings stand for `std::string`, `std::string_view` and `byte_vector` alike.
-/

namespace Verif

/-- `std::string` / `std::string_view` / `byte_vector`: a finite sequence of bytes
(/repo/include/persistence/bytes.hpp, bytes are `std::byte`). -/
abbrev Str := List UInt8

/-- Byte string of an ASCII literal, used for the literals in the C++ sources and in examples.
Characters above 255 are not used. -/
def lit (s : String) : Str := s.toList.map fun c => UInt8.ofNat c.toNat

end Verif
