import Verif.Model.Types
/-!
Model of enumerators, parse.c:254-258 (`in_ty_range`), 2839-2849 (`eval_sign_extend`) and
1338-1388 (the loop of `enum_specifier`). `int64_t` values are integers in [-2^63, 2^63).
-/
set_option autoImplicit false
namespace Slimcc.Ty

/-- Conversion of an integer to `int64_t` (two's complement). -/
def toS64 (v : Int) : Int := (v + 2 ^ 63) % 2 ^ 64 - 2 ^ 63

/-- parse.c:2839-2849 `eval_sign_extend` on integer types. -/
def evalSignExtend (ty : ITy) (val : Int) : Int :=
  if ty.size = 8 then val
  else if ty.size = 1 then (if ty.uns then val % 2 ^ 8 else (val + 2 ^ 7) % 2 ^ 8 - 2 ^ 7)
  else if ty.size = 2 then (if ty.uns then val % 2 ^ 16 else (val + 2 ^ 15) % 2 ^ 16 - 2 ^ 15)
  else (if ty.uns then val % 2 ^ 32 else (val + 2 ^ 31) % 2 ^ 32 - 2 ^ 31)

/-- parse.c:2984-2989: the integer part of the evaluation of a cast. -/
def evalCast (ty : ITy) (val : Int) : Int :=
  if ty.kind = .bool then (if val = 0 then 0 else 1) else evalSignExtend ty val

/-- parse.c:254-258 `in_ty_range`. -/
def inTyRange (val : Int) (ty : ITy) : Bool := evalCast ty val == val

/-- The variables of the loop, parse.c:1339-1349. -/
structure EnumSt where
  val : Int
  neg : Bool
  unsg : Bool
  base : ITy
  deriving DecidableEq, Repr

/-- An enumerator: its explicit value, if any, and whether the type of that expression is
unsigned. -/
structure Enumerator where
  expl : Option (Int × Bool)
  deriving DecidableEq, Repr

/-- parse.c:1356-1358: the value of an enumerator in the `int64_t` variable `val`. -/
def enumVal (s : EnumSt) (e : Enumerator) : Int :=
  match e.expl with
  | some (v, _) => toS64 v
  | none => s.val

/-- parse.c:1359-1360: `been_negative` after an enumerator. -/
def enumNeg (s : EnumSt) (e : Enumerator) : Bool :=
  match e.expl with
  | some (v, u) => if !u && decide (toS64 v < 0) then true else s.neg
  | none => s.neg

/-- parse.c:1352-1378: one enumerator; returns its recorded value. `none` is the error
"enum value out of type range". `val++` wraps (the C source overflows a signed integer there when
`val` is INT64_MAX). -/
def enumStep (hasType : Bool) (s : EnumSt) (e : Enumerator) : Option (EnumSt × Int) :=
  let val := enumVal s e
  let neg := enumNeg s e
  if !inTyRange val s.base then
    if hasType then none
    else if neg then
      let base := if inTyRange val ty_int && !s.unsg then ty_int else ty_long
      some (⟨toS64 (val + 1), neg, s.unsg, base⟩, val)
    else
      let base := if inTyRange val ty_uint then ty_uint else ty_ulong
      some (⟨toS64 (val + 1), neg, true, base⟩, val)
  else some (⟨toS64 (val + 1), neg, s.unsg, s.base⟩, val)

def enumLoop (hasType : Bool) : EnumSt → List Enumerator → Option (EnumSt × List Int)
  | s, [] => some (s, [])
  | s, e :: es =>
    match enumStep hasType s e with
    | none => none
    | some (s', v) =>
      match enumLoop hasType s' es with
      | none => none
      | some (s'', vs) => some (s'', v :: vs)

/-- parse.c:1383-1388: the type given to an enumeration without fixed type. -/
def enumFinalTy (s : EnumSt) : ITy :=
  if s.base.kind = .int && !s.neg && !s.unsg then ty_uint
  else if s.neg && s.unsg then ty_long
  else s.base

/-- parse.c:1338-1393 for an enumeration without fixed underlying type: recorded values and type. -/
def enumSpecifier (es : List Enumerator) : Option (List Int × ITy) :=
  match enumLoop false ⟨0, false, false, ty_int⟩ es with
  | none => none
  | some (s, vs) => some (vs, enumFinalTy s)

/-- The same for `enum : ty { ... }`. -/
def enumSpecifierFixed (ty : ITy) (es : List Enumerator) : Option (List Int) :=
  (enumLoop true ⟨0, false, false, ty⟩ es).map (·.2)

end Slimcc.Ty
