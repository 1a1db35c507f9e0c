import Verif.Model.Types
/-!
Model of the built-in type specifiers of `declspec`, parse.c:748-1025: the counter and the switch
on it. Storage classes, qualifiers, typedef names, struct/union/enum, typeof and attributes are not
modelled.
-/
set_option autoImplicit false
namespace Slimcc.Ty

/-- The keywords of parse.c:905-925. -/
inductive Kw where
  | void | bool | char | short | int | long | float | double | signed | unsigned
  deriving DecidableEq, Repr

/-- A built-in type. -/
inductive BTy where
  | void
  | a (t : ATy)
  deriving DecidableEq, Repr

def VOID : Nat := 1 <<< 0
def BOOL : Nat := 1 <<< 2
def CHAR : Nat := 1 <<< 4
def SHORT : Nat := 1 <<< 6
def INT : Nat := 1 <<< 8
def LONG : Nat := 1 <<< 10
def FLOAT : Nat := 1 <<< 12
def DOUBLE : Nat := 1 <<< 14
def OTHER : Nat := 1 <<< 16
def SIGNED : Nat := 1 <<< 17
def UNSIGNED : Nat := 1 <<< 18

/-- parse.c:905-925: the update of the counter. -/
def bump (counter : Nat) : Kw → Nat
  | .void => counter + VOID
  | .bool => counter + BOOL
  | .char => counter + CHAR
  | .short => counter + SHORT
  | .int => counter + INT
  | .long => counter + LONG
  | .float => counter + FLOAT
  | .double => counter + DOUBLE
  | .signed => counter ||| SIGNED
  | .unsigned => counter ||| UNSIGNED

/-- parse.c:927-991: the switch; `none` is the error "invalid type". -/
def switchTy (counter : Nat) : Option BTy :=
  if counter = VOID then some .void
  else if counter = BOOL then some (.a (.i ty_bool))
  else if counter = CHAR then some (.a (.i ty_pchar))
  else if counter = SIGNED + CHAR then some (.a (.i ty_char))
  else if counter = UNSIGNED + CHAR then some (.a (.i ty_uchar))
  else if counter = SHORT || counter = SHORT + INT || counter = SIGNED + SHORT ||
      counter = SIGNED + SHORT + INT then some (.a (.i ty_short))
  else if counter = UNSIGNED + SHORT || counter = UNSIGNED + SHORT + INT then some (.a (.i ty_ushort))
  else if counter = INT || counter = SIGNED || counter = SIGNED + INT then some (.a (.i ty_int))
  else if counter = UNSIGNED || counter = UNSIGNED + INT then some (.a (.i ty_uint))
  else if counter = LONG || counter = LONG + INT || counter = SIGNED + LONG ||
      counter = SIGNED + LONG + INT then some (.a (.i ty_long))
  else if counter = LONG + LONG || counter = LONG + LONG + INT || counter = SIGNED + LONG + LONG ||
      counter = SIGNED + LONG + LONG + INT then some (.a (.i ty_llong))
  else if counter = UNSIGNED + LONG || counter = UNSIGNED + LONG + INT then some (.a (.i ty_ulong))
  else if counter = UNSIGNED + LONG + LONG || counter = UNSIGNED + LONG + LONG + INT then some (.a (.i ty_ullong))
  else if counter = FLOAT then some (.a .float)
  else if counter = DOUBLE then some (.a .double)
  else if counter = LONG + DOUBLE then some (.a .ldouble)
  else none

/-- parse.c:776-995: the loop, with the counter and the type so far. -/
def specLoop : List Kw → Nat → Option BTy → Option BTy
  | [], _, ty => ty
  | kw :: ks, counter, _ =>
    match switchTy (bump counter kw) with
    | none => none
    | some ty => specLoop ks (bump counter kw) (some ty)

/-- parse.c:748-1013: without any specifier the type is `int`. -/
def declspec (ks : List Kw) : Option BTy :=
  match ks with
  | [] => some (.a (.i ty_int))
  | ks => specLoop ks 0 none

end Slimcc.Ty
