import Verif.Spec.ExprType
import Verif.Lemmas.CInt
import Verif.Model.Compat
/-!
Model of the types the compiler gives to expressions: type.c:350-560 `get_common_type`,
`usual_arith_conv`, `add_type` and the functions of parse.c that build the nodes.

An expression is the syntax tree of Spec/ExprType.lean (the parser's calls build the nodes of the
expression from the inside out, so the functions below take the tree and the types of its
operands). A type object is its qualifiers and the unqualified type; an arithmetic type is named as
in Spec/CInt.lean, and translated where type.c looks into it. Simplifications: those of
Spec/ExprType.lean; `none` is a diagnostic; sizes are left out, so "sizeof applied to incomplete
type" is not modelled.
-/
set_option autoImplicit false
namespace Slimcc.ExprType
open Slimcc.Spec Slimcc.Ty

/-- The compiler's object for an integer type, type.c:4-18. -/
def ityOf : CTy → ITy
  | .bool => ty_bool | .char => ty_pchar | .schar => ty_char | .uchar => ty_uchar
  | .short => ty_short | .ushort => ty_ushort | .int => ty_int | .uint => ty_uint
  | .long => ty_long | .ulong => ty_ulong | .llong => ty_llong | .ullong => ty_ullong

/-- The compiler's object for an arithmetic type, type.c:4-28. -/
def atyOf : CATy → ATy
  | .i t => .i (ityOf t) | .float => .float | .double => .double | .ldouble => .ldouble

/-- The type of an expression: qualifiers and unqualified type. -/
abbrev M := XQ × XTy

/-- The type object of Model/Compat.lean. A qualified type is a copy with `origin` set
(type.c:92-110); a list of parameters, known by a number, is a single parameter of that number. -/
def embQ (q : XQ) (t : CT) : CT :=
  if q = XQ.none then t else .origin ⟨false, q.c, q.v, false⟩ t

/-- The type object of an unqualified type. -/
def emb : XTy → CT
  | .void => .nominal 0 0
  | .arith (.i .bool) => .nominal 1 0
  | .arith (.i t) => .int (ityOf t).kind (ityOf t).uns
  | .arith .float => .flo .float
  | .arith .double => .flo .double
  | .arith .ldouble => .flo .ldouble
  | .struct i => .nominal 2 i
  | .ptr q t => .ptr ⟨false, false, false, false⟩ (embQ q (emb t))
  | .arr q t n => .array ⟨false, false, false, false⟩ (embQ q (emb t)) (match n with | some n => (n : Int) | none => -1)
  | .fn r p => .func (emb r) (.cons (.nominal 3 p) .nil) false false

/-- What the expressions refer to: the members of the structures, what is a constant of value 0
(`is_const_expr`), pointer equality of type objects, and `opt_optimize`. -/
structure Env where
  fields : Nat → Nat → Option (XQ × XTy)
  ice0 : XExpr → Bool
  same : CT → CT → Bool
  opt : Bool

/-- type.c:201-252 `is_compatible`. -/
def compatible (E : Env) (a b : M) : Bool :=
  isCompatible E.same (embQ a.1 (emb a.2)) (embQ b.1 (emb b.2))

/-- type.c:76-88 `unqual`. -/
def unqual (m : M) : M := (XQ.none, m.2)

/-- The field `base`. -/
def base : M → Option M
  | (_, .ptr q t) | (_, .arr q t _) => some (q, t)
  | _ => none

/-- type.c:254-259 `pointer_to`. -/
def pointerTo (m : M) : M := (XQ.none, .ptr m.1 m.2)

/-- type.c:261-265 `array_to_pointer`. -/
def arrayToPointer : M → M
  | (_, .arr q t _) => pointerTo (q, t)
  | m => m

/-- `TY_FUNC` becomes a pointer (type.c:355-358, parse.c:3519-3522). -/
def funcToPointer (m : M) : M := if m.2.isFn then pointerTo m else m

def isInteger : M → Bool
  | (_, .arith (.i _)) => true
  | _ => false

def isFlonum : M → Bool
  | (_, .arith (.i _)) => false
  | (_, .arith _) => true
  | _ => false

def isNumeric (m : M) : Bool := isInteger m || isFlonum m

/-- parse.c:333-338. -/
def noValue : XTy → Bool
  | .void | .struct _ => true
  | _ => false

/-- parse.c:331-344 `invalid_cast`. -/
def invalidCast (src dst : M) : Bool :=
  if dst.2 ≠ .void && noValue src.2 then true
  else (base src).isSome && isFlonum dst

/-- parse.c:346-382 `new_cast`: the type of the result. -/
def newCast (src dst : M) : Option M :=
  if invalidCast src (unqual dst) then none else some (unqual dst)

/-- parse.c:384-398 `cond_cast`; the operators it lets through are of type `int`, so that the cast
it spares would not fail either. -/
def condCast (m : M) : Option M := newCast m (XQ.none, .arith (.i .bool))

/-- type.c:319-348 `int_promotion` of an operand that is not a bit-field. -/
def intPromotion : M → Option M
  | (q, .arith (.i t)) =>
    match int_promotion (ityOf t) none with
    | some p => some (if cty p = t then (q, .arith (.i t)) else (XQ.none, .arith (.i (cty p))))
    | none => none
  | _ => none

/-- type.c:369-398: the arithmetic part of `get_common_type`. -/
def commonArith : M → M → Option M
  | (_, .arith a), (_, .arith b) => (get_common_type (atyOf a) none (atyOf b) none).map fun r => (XQ.none, .arith (caty r))
  | _, _ => none

/-- type.c:350-398 `get_common_type`; `n1` and `n2` tell what `is_nullptr` says of the operands. -/
def getCommonType (E : Env) (n1 n2 : Bool) (m1 m2 : M) (handlePtr : Bool) : Option M :=
  if handlePtr then
    let ty1 := funcToPointer m1
    let ty2 := funcToPointer m2
    match base ty1, base ty2 with
    | some b1, some b2 =>
      if n2 then some (arrayToPointer ty1)
      else if n1 then some (arrayToPointer ty2)
      else if compatible E b1 b2 then some (arrayToPointer ty1)
      else some (pointerTo (XQ.none, .void))
    | some _, none => if n2 then some (arrayToPointer ty1) else commonArith ty1 ty2
    | none, some _ => if n1 then some (arrayToPointer ty2) else commonArith ty1 ty2
    | none, none => commonArith ty1 ty2
  else commonArith m1 m2

/-- type.c:407-411 `usual_arith_conv`: the type of both operands afterwards. -/
def usualArithConv (E : Env) (n1 n2 : Bool) (m1 m2 : M) (handlePtr : Bool) : Option M :=
  match getCommonType E n1 n2 m1 m2 handlePtr with
  | none => none
  | some ty =>
    match newCast m1 ty, newCast m2 ty with
    | some r, some _ => some r
    | _, _ => none

/-- parse.c:400-408 `apply_cv_qualifier`. -/
def applyCv (m m2 : M) : M := (m.1.union m2.1, m.2)

/-- type.c:521-528: ND_DEREF. -/
def derefTy (m : M) : Option M :=
  match base m with
  | none => none
  | some b => if b.2 = .void then none else some b

/-- The type of a pointer operand of ND_ADD and ND_SUB, type.c:433-438. -/
def ptrOperand : M → M
  | (_, .arr q t _) => unqual (pointerTo (q, t))
  | m => m

/-- parse.c:3511-3537 `new_add`, with ND_ADD in `add_type`, type.c:431-443. -/
def newAdd (E : Env) (m1 m2 : M) : Option M :=
  if isNumeric m1 && isNumeric m2 then usualArithConv E false false m1 m2 false
  else
    let l := funcToPointer m1
    let r := funcToPointer m2
    if (isInteger l || isInteger r) && ((base l).isSome || (base r).isSome) then
      some (if (base l).isSome then ptrOperand l else ptrOperand r)
    else none

/-- parse.c:3540-3570 `new_sub`, with ND_SUB in `add_type`. -/
def newSub (E : Env) (m1 m2 : M) : Option M :=
  if isNumeric m1 && isNumeric m2 then usualArithConv E false false m1 m2 false
  else
    let l := funcToPointer m1
    let r := funcToPointer m2
    if (base l).isSome && isInteger r then some (ptrOperand l)
    else if (base l).isSome && (base r).isSome then
      match newCast l (XQ.none, .arith (.i .long)), newCast r (XQ.none, .arith (.i .long)) with
      | some _, some _ => some (XQ.none, .arith (.i .long))
      | _, _ => none
    else none

/-- parse.c:3934-3954 `struct_ref`; the search in anonymous members is Model/Member.lean. -/
def structRef (E : Env) (m : M) (name : Nat) : Option M :=
  match m.2 with
  | .struct s => (E.fields s name).map fun f => applyCv f m
  | _ => none

/-- type.c:501-510: ND_COND. -/
def condTy (E : Env) (n1 n2 : Bool) (m1 m2 : M) : Option M :=
  if m1.2 = .void ∨ m2.2 = .void then some (XQ.none, .void)
  else if !isNumeric m1 && compatible E m1 m2 then some (arrayToPointer m1)
  else usualArithConv E n1 n2 m1 m2 true

/-- type.c:445-456: ND_POS and ND_NEG. -/
def posTy (m : M) : Option M :=
  if !isNumeric m then none else if isInteger m then intPromotion m else some m

/-- type.c:308-317 `is_nullptr`; `m` is the type of the node. `ice0` of the operand of a cast
stands for the whole test of lines 313-314, for other nodes the type is looked at here. -/
def isNullptr (E : Env) (e : XExpr) (m : M) : Bool :=
  match e with
  | .cast _ (.ptr _ .void) e' => E.ice0 e'
  | _ => isInteger m && E.ice0 e

/-- parse.c:3263-3277 and the calls of `new_add` for `+=`, `++`: the type of the object, if the
addition is possible. -/
def addAssignTy (E : Env) (m1 m2 : M) : Option M := (newAdd E m1 m2).map fun _ => m1

/-- parse.c:3956-3974 `new_inc_dec`. -/
def postIncTy (E : Env) (m : M) : Option M :=
  match newAdd E m (XQ.none, .arith (.i .int)) with
  | none => none
  | some _ =>
    if E.opt && m.2 ≠ .arith (.i .bool) && !isFlonum m then
      match newAdd E m (XQ.none, .arith (.i .int)) with
      | none => none
      | some r => newCast r m
    else some m

/-- type.c:413-580 `add_type`, with the functions of parse.c that build the nodes. -/
def addType (E : Env) : XExpr → Option M
  | .var q t => some (q, t)
  | .num a => some (XQ.none, .arith a)
  | .str n => some (XQ.none, .arr XQ.none (.arith (.i .char)) (some n))
  | .pos e => (addType E e).bind posTy
  | .neg e => (addType E e).bind posTy
  -- type.c:480-485
  | .bitnot e => (addType E e).bind fun m => if isInteger m then intPromotion m else none
  | .lnot e => ((addType E e).bind condCast).map fun _ => (XQ.none, .arith (.i .int))
  | .sizeofE e => (addType E e).map fun _ => (XQ.none, .arith (.i .ulong))
  -- parse.c:3653-3669
  | .deref e => (addType E e).bind fun m =>
      if m.2.isFn then some m
      else (derefTy m).map fun b => if m.2.isArr then applyCv b m else b
  -- type.c:518-520
  | .addr e => (addType E e).map pointerTo
  -- parse.c:3983-3995
  | .index a i => (addType E a).bind fun m => (addType E i).bind fun mi =>
      ((newAdd E m mi).bind derefTy).map fun b => if m.2.isArr then applyCv b m else b
  | .member e n => (addType E e).bind fun m => structRef E m n
  -- parse.c:4002-4013
  | .arrow e n => (addType E e).bind fun m =>
      ((derefTy m).bind fun b => structRef E b n).map fun b => if m.2.isArr then applyCv b m else b
  -- parse.c `funcall`
  | .call f => (addType E f).bind fun m =>
      match m.2 with
      | .fn r _ => some (XQ.none, r)
      | .ptr _ (.fn r _) => some (XQ.none, r)
      | _ => none
  | .cast q t e => (addType E e).bind fun m => newCast m (q, t)
  | .mulOp a b => (addType E a).bind fun m1 => (addType E b).bind fun m2 => usualArithConv E false false m1 m2 false
  | .add a b => (addType E a).bind fun m1 => (addType E b).bind fun m2 => newAdd E m1 m2
  | .sub a b => (addType E a).bind fun m1 => (addType E b).bind fun m2 => newSub E m1 m2
  -- type.c:486-495
  | .shift a b => (addType E a).bind fun m1 => (addType E b).bind fun m2 =>
      if isInteger m1 && isInteger m2 then intPromotion m1 else none
  -- type.c:465-472
  | .cmp a b => (addType E a).bind fun m1 => (addType E b).bind fun m2 =>
      (usualArithConv E (isNullptr E a m1) (isNullptr E b m2) m1 m2 true).map fun _ => (XQ.none, .arith (.i .int))
  -- parse.c:3372-3391
  | .logic a b => (addType E a).bind fun m1 => (addType E b).bind fun m2 =>
      (condCast m1).bind fun _ => (condCast m2).map fun _ => (XQ.none, .arith (.i .int))
  -- parse.c:3363-3368
  | .cond c a b => ((addType E c).bind condCast).bind fun _ => (addType E a).bind fun m1 => (addType E b).bind fun m2 =>
      condTy E (isNullptr E a m1) (isNullptr E b m2) m1 m2
  -- type.c:514-516
  | .comma a b => (addType E a).bind fun _ => (addType E b).map arrayToPointer
  -- type.c:457-464
  | .assign a b => (addType E a).bind fun m1 => (addType E b).bind fun m2 =>
      match m1.2 with
      | .arr _ _ _ => none
      | .struct _ => some m1
      | _ => (newCast m2 m1).map fun _ => m1
  -- parse.c:3300-3327; `new_add` for `+=`, no look at the right operand for the others
  | .addAssign a b => (addType E a).bind fun m1 => (addType E b).bind fun m2 => addAssignTy E m1 m2
  | .mulAssign a b => (addType E a).bind fun m1 => (addType E b).map fun _ => m1
  -- parse.c:3677-3683
  | .preInc e => (addType E e).bind fun m => addAssignTy E m (XQ.none, .arith (.i .int))
  | .postInc e => (addType E e).bind fun m => postIncTy E m

end Slimcc.ExprType
