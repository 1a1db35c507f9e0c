import Verif.Model.DeclSpec
/-!
The type specifier lists of C23 6.7.3.1 (without `_BitInt`, complex, decimal floating types and
typedef names).
-/
set_option autoImplicit false
namespace Slimcc.Spec
open Ty

/-- The multisets of type specifiers, and the type each designates. -/
def stdSpecifiers : List (List Kw × BTy) := [
  ([.void], .void),
  ([.char], .a (.i ty_pchar)),
  ([.signed, .char], .a (.i ty_char)),
  ([.unsigned, .char], .a (.i ty_uchar)),
  ([.short], .a (.i ty_short)),
  ([.signed, .short], .a (.i ty_short)),
  ([.short, .int], .a (.i ty_short)),
  ([.signed, .short, .int], .a (.i ty_short)),
  ([.unsigned, .short], .a (.i ty_ushort)),
  ([.unsigned, .short, .int], .a (.i ty_ushort)),
  ([.int], .a (.i ty_int)),
  ([.signed], .a (.i ty_int)),
  ([.signed, .int], .a (.i ty_int)),
  ([.unsigned], .a (.i ty_uint)),
  ([.unsigned, .int], .a (.i ty_uint)),
  ([.long], .a (.i ty_long)),
  ([.signed, .long], .a (.i ty_long)),
  ([.long, .int], .a (.i ty_long)),
  ([.signed, .long, .int], .a (.i ty_long)),
  ([.unsigned, .long], .a (.i ty_ulong)),
  ([.unsigned, .long, .int], .a (.i ty_ulong)),
  ([.long, .long], .a (.i ty_llong)),
  ([.signed, .long, .long], .a (.i ty_llong)),
  ([.long, .long, .int], .a (.i ty_llong)),
  ([.signed, .long, .long, .int], .a (.i ty_llong)),
  ([.unsigned, .long, .long], .a (.i ty_ullong)),
  ([.unsigned, .long, .long, .int], .a (.i ty_ullong)),
  ([.float], .a .float),
  ([.double], .a .double),
  ([.long, .double], .a .ldouble),
  ([.bool], .a (.i ty_bool))]

/-- The specifiers with repetitions of `signed` and of `unsigned` dropped. -/
def dedupSign (ks : List Kw) : List Kw :=
  ks.filter (fun k => k != .signed && k != .unsigned) ++
    (if .signed ∈ ks then [.signed] else []) ++ (if .unsigned ∈ ks then [.unsigned] else [])

end Slimcc.Spec
