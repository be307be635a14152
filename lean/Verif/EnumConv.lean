import Verif.Basic

/-!
# Model of /repo/include/persistence/enum_utility.hpp

A conversion table is the list of (value, name) pairs of `EnumConverter::value_to_name`
(enum_utility.hpp:65-66). Enumerators are represented by their underlying integer. The template only
accepts tables with at least one entry (`static_assert` at line 36); nothing below depends on it.
-/

namespace Verif.EnumConv

/-- `EnumConverter::value_to_name` (enum_utility.hpp:65-66). -/
abbrev Table := List (Int × Str)

/-- `EnumConverter::to_string` (enum_utility.hpp:43-51): the name of the first entry with the value,
the empty string if there is none. -/
def enumName : Table → Int → Str
  | [], _ => []
  | item :: rest, value => if item.1 = value then item.2 else enumName rest value

/-- `EnumConverter::from_string` (enum_utility.hpp:54-63): returns the assigned value, `none` for
`false` (in which case `value` is not assigned). -/
def enumValue : Table → Str → Option Int
  | [], _ => none
  | item :: rest, name => if item.2 = name then some item.1 else enumValue rest name

end Verif.EnumConv
