import Verif.Core

/-!
# Enumerations described with Boost.Describe

Model of the branches for `PERSISTENCE_BOOST_DESCRIBE` in serialize_enum.hpp:37-47, write_enum.hpp:37-47,
deserialize_enum.hpp:64-91 and parse_enum.hpp:108-131, with the two functions of Boost.Describe that they call. The table of
the enumeration is the list of the described enumerators in their order; the names are identifiers of the program.
Two enumerators may have the same value.
-/

namespace Verif.EnumConv

/-- `boost::describe::enum_to_string(value, def)`, called at serialize_enum.hpp:44 and write_enum.hpp:44: the loop goes
over all enumerators and keeps the last one that has the value. -/
def describedName : Table → Int → Str → Str
  | [], _, found => found
  | item :: rest, value, found => describedName rest value (if item.1 = value then item.2 else found)

/-- `boost::describe::enum_from_string(name, value)`: the first enumerator that `std::strcmp` finds equal. The argument is the
character sequence in memory up to its terminating NUL. -/
def describedValue : Table → Str → Option Int
  | [], _ => none
  | item :: rest, name => if item.2 = name then some item.1 else describedValue rest name

end Verif.EnumConv

namespace Verif.Core
open Verif.EnumConv

/-- `JsonEnumSerializer` and `JsonEnumWriter` for described enumerations (serialize_enum.hpp:38-46,
write_enum.hpp:38-46): the string that is written. -/
def writeDescribed (table : Table) (value : Int) : Json := .str (describedName table value [])

/-- `JsonEnumDeserializer` for described enumerations (deserialize_enum.hpp:66-90); `none` if the value is not accepted. Line 78 passes
`view.data()`, so that the length of the string is lost. -/
def readDescribed (table : Table) : Json → Option Int
  | .str s => describedValue table (cstr s)
  | _ => none

/-- `JsonEnumParser` for described enumerations (parse_enum.hpp:110-131), line 121: the same with `s.literal.data()`. -/
def parseDescribed (table : Table) (s : Str) : Option Int := describedValue table (cstr s)

end Verif.Core
