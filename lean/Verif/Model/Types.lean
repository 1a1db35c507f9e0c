import Verif.Model.Basic
/-!
Model of the arithmetic part of type.c.

A type of the compiler is a heap object; here an integer type is its kind and signedness (the
size is determined by the kind). Simplifications: qualifiers and enumerations are absent (an
enumeration type has the kind, size and sign of its underlying type, parse.c:1286-1295).
-/
set_option autoImplicit false
namespace Slimcc.Ty

/-- slimcc.h:524-531: the integer kinds. -/
inductive IKind where
  | bool | pchar | char | short | int | long | llong
  deriving DecidableEq, Repr

/-- slimcc.h:544-548: `kind` and `is_unsigned` of an integer type. -/
structure ITy where
  kind : IKind
  uns : Bool
  deriving DecidableEq, Repr

/-- type.c:4-18: the `size` field, in bytes. -/
def IKind.size : IKind → Nat
  | .bool => 1 | .pchar => 1 | .char => 1 | .short => 2 | .int => 4 | .long => 8 | .llong => 8

def ITy.size (t : ITy) : Nat := t.kind.size

/- type.c:4-18 -/
def ty_bool : ITy := ⟨.bool, true⟩
def ty_pchar : ITy := ⟨.pchar, false⟩
def ty_char : ITy := ⟨.char, false⟩
def ty_short : ITy := ⟨.short, false⟩
def ty_int : ITy := ⟨.int, false⟩
def ty_long : ITy := ⟨.long, false⟩
def ty_llong : ITy := ⟨.llong, false⟩
def ty_uchar : ITy := ⟨.char, true⟩
def ty_ushort : ITy := ⟨.short, true⟩
def ty_uint : ITy := ⟨.int, true⟩
def ty_ulong : ITy := ⟨.long, true⟩
def ty_ullong : ITy := ⟨.llong, true⟩

/-- The types that exist in the compiler (type.c:4-18; `is_unsigned` is not set anywhere else for
integers). -/
def ITy.wf (t : ITy) : Bool :=
  match t.kind with
  | .bool => t.uns
  | .pchar => !t.uns
  | _ => true

/-- Arithmetic types: integers and the three floating types (slimcc.h:532-534). -/
inductive ATy where
  | i (t : ITy)
  | float | double | ldouble
  deriving DecidableEq, Repr

/-- type.c:30-40 `to_unsigned`; `none` is the internal error. -/
def to_unsigned : IKind → Option ITy
  | .int => some ty_uint
  | .long => some ty_ulong
  | .llong => some ty_ullong
  | _ => none

/-- type.c:292-306 `int_rank`; `none` is the internal error. -/
def int_rank : IKind → Option Nat
  | .bool | .char | .short => some 0
  | .int => some 1
  | .long => some 2
  | .llong => some 3
  | .pchar => none

/-- type.c:319-348 `int_promotion`: the type of the operand afterwards. `bw` is the width if the
operand designates a bit-field (type.c:134-157 `is_bitfield2`). `none` is an internal error. -/
def int_promotion (ty : ITy) (bw : Option Nat) : Option ITy :=
  match bw with
  | some w =>
    let intWidth := ty_int.size * 8
    if w = intWidth && ty.uns then some ty_uint
    else if w ≤ intWidth then some ty_int
    else some ty
  | none =>
    if ty.size < ty_int.size then some ty_int
    else if ty.size = ty_int.size then
      match int_rank ty.kind, int_rank ty_int.kind with
      | some r, some ri =>
        if r < ri then (if ty.uns then some ty_uint else some ty_int) else some ty
      | _, _ => none
    else some ty

/-- type.c:382-397: the integer part of `get_common_type`, after the promotions. -/
def common_promoted (ty1 ty2 : ITy) : Option ITy :=
  if ty1.size ≠ ty2.size then some (if ty1.size < ty2.size then ty2 else ty1)
  else
    match int_rank ty1.kind, int_rank ty2.kind with
    | some r1, some r2 =>
      let ranked := if r1 > r2 then ty1 else ty2
      if ty1.uns = ty2.uns then some ranked else to_unsigned ranked.kind
    | _, _ => none

/-- type.c:350-398 `get_common_type` on arithmetic operands (the pointer part is not modelled).
An operand is its type and, for a bit-field, the width. -/
def get_common_type (ty1 : ATy) (bw1 : Option Nat) (ty2 : ATy) (bw2 : Option Nat) : Option ATy :=
  if ty1 = .ldouble || ty2 = .ldouble then some .ldouble
  else if ty1 = .double || ty2 = .double then some .double
  else if ty1 = .float || ty2 = .float then some .float
  else
    match ty1, ty2 with
    | .i t1, .i t2 =>
      match int_promotion t1 bw1, int_promotion t2 bw2 with
      | some p1, some p2 => (common_promoted p1 p2).map .i
      | _, _ => none
    | _, _ => none

/-- type.c:159-187 `is_redundant_cast` on integer types: `ty` is the new cast, `ty2` the type of
the cast operand, `ty3` the type of that cast's operand. -/
def is_redundant_cast (ty ty2 ty3 : ITy) : Bool :=
  let sz := ty.size
  let sz2 := ty2.size
  let sz3 := ty3.size
  if ty3.kind = .bool then true
  else if ty2.kind = .bool then false
  else if ty.kind = .bool then sz2 ≥ sz3
  else if sz ≤ sz3 then sz ≤ sz2
  else if sz ≤ sz2 then true
  else if sz2 = sz3 then ty3.uns == ty2.uns
  else if sz2 > sz3 then ty3.uns || !ty2.uns
  else false

end Slimcc.Ty
