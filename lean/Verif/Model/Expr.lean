import Verif.Model.Types
import Verif.Spec.CExpr
/-!
Model of the expression trees of the compiler for integer types: construction with implicit
conversions (type.c:319-512 `add_type` and what it calls, parse.c:346-398, 3191-3395, 3511-3660,
3956-3974) and the constant evaluator (parse.c:2839-3114).

Simplifications: operands are of integer type (no floating point, pointers, structures, arrays,
bit-fields, enumerations or qualifiers); lvalues are variables, none of them `constexpr` or
atomic; types are compared by what they are rather than by address (parse.c:365); a tree is
rebuilt where the compiler changes it in place; tokens and error positions are left out. The
operator names are those of `Spec.CExpr`.
-/
set_option autoImplicit false
namespace Slimcc.Ty
open Slimcc.Spec (ArOp CmpOp UnOp CTy BinOp ShOp Expr)

/-- The compiler's type for a C type (type.c:4-18). -/
def ity : CTy → ITy
  | .bool => ty_bool
  | .char => ty_pchar
  | .schar => ty_char
  | .uchar => ty_uchar
  | .short => ty_short
  | .ushort => ty_ushort
  | .int => ty_int
  | .uint => ty_uint
  | .long => ty_long
  | .ulong => ty_ulong
  | .llong => ty_llong
  | .ullong => ty_ullong

/-- ND_SHL, ND_SHR, ND_SAR (slimcc.h `NodeKind`). -/
inductive ShKind where
  | shl | shr | sar
  deriving DecidableEq, Repr

/-- The `arith_kind` of a compound assignment. -/
inductive AKind where
  | ar (op : ArOp)
  | sh (k : ShKind)
  deriving DecidableEq, Repr

/-- slimcc.h:353-417 `NodeKind`, 428-500 `Node`: the kinds that occur in integer expressions, with `node->ty`. The type
of comparisons and logical operators is `int` (type.c:476,484). -/
inductive Node where
  | num (ty : ITy) (val : BitVec 64)
  | null (ty : ITy)
  | var (ty : ITy) (x : Nat)
  | cast (ty : ITy) (e : Node)
  | un (op : UnOp) (ty : ITy) (e : Node)
  | not (e : Node)
  | bin (op : ArOp) (ty : ITy) (a b : Node)
  | shift (k : ShKind) (ty : ITy) (a b : Node)
  | cmp (op : CmpOp) (a b : Node)
  | logand (a b : Node)
  | logor (a b : Node)
  | cond (ty : ITy) (c a b : Node)
  | comma (a b : Node)
  | assign (ty : ITy) (x : Nat) (r : Node)
  | arithAssign (k : AKind) (ty : ITy) (x : Nat) (r : Node)
  | postIncDec (ty : ITy) (x : Nat) (r : Node)
  deriving DecidableEq, Repr

/-- `node->ty`. -/
def Node.ty : Node → ITy
  | .num t _ => t
  | .null t => t
  | .var t _ => t
  | .cast t _ => t
  | .un _ t _ => t
  | .not _ => ty_int
  | .bin _ t _ _ => t
  | .shift _ t _ _ => t
  | .cmp _ _ _ => ty_int
  | .logand _ _ => ty_int
  | .logor _ _ => ty_int
  | .cond t _ _ _ => t
  | .comma _ b => b.ty
  | .assign t _ _ => t
  | .arithAssign _ t _ _ => t
  | .postIncDec t _ _ => t

/-- parse.c:2839-2849 `eval_sign_extend`. -/
def signExt (ty : ITy) (x : BitVec 64) : BitVec 64 :=
  if ty.size = 8 then x
  else if ty.size = 1 then (if ty.uns then (x.setWidth 8).setWidth 64 else (x.setWidth 8).signExtend 64)
  else if ty.size = 2 then (if ty.uns then (x.setWidth 16).setWidth 64 else (x.setWidth 16).signExtend 64)
  else (if ty.uns then (x.setWidth 32).setWidth 64 else (x.setWidth 32).signExtend 64)

/-- What the host machine's shift instruction gives for a count outside the width (undefined in
the C of the compiler's source); an arbitrary parameter of the model. -/
abbrev HostShift := ShKind → ITy → BitVec 64 → BitVec 64 → BitVec 64

/-- parse.c:2881-2918: two-operand arithmetic on values. Host additions, subtractions and
multiplications of `int64_t` wrap (the compiler's own source overflows a signed type there). -/
def evalBin (op : ArOp) (ty : ITy) (x y : BitVec 64) : Outcome (BitVec 64) :=
  match op with
  | .add => .ok (signExt ty (x + y))
  | .sub => .ok (signExt ty (x - y))
  | .mul => .ok (signExt ty (x * y))
  | .div =>
    if y = 0 then .error
    else if ty.uns then .ok (x.udiv y)
    else if x = BitVec.intMin 64 ∧ y = -1 then .ok (BitVec.intMin 64)
    else .ok (x.sdiv y)
  | .mod =>
    if y = 0 then .error
    else if ty.uns then .ok (x.umod y)
    else if x = BitVec.intMin 64 ∧ y = -1 then .ok 0
    else .ok (x.srem y)
  | .band => .ok (x &&& y)
  | .bor => .ok (x ||| y)
  | .bxor => .ok (x ^^^ y)

/-- parse.c:2919-2928. -/
def evalShift (hs : HostShift) (k : ShKind) (ty : ITy) (x y : BitVec 64) : BitVec 64 :=
  match k with
  | .shl => signExt ty (if y.toNat < 64 then x <<< y.toNat else hs k ty x y)
  | .shr =>
    if ty.size = 4 then
      (if y.toNat < 32 then (x.setWidth 32 >>> y.toNat).setWidth 64 else hs k ty x y)
    else (if y.toNat < 64 then x >>> y.toNat else hs k ty x y)
  | .sar =>
    if ty.size = 4 then
      (if y.toNat < 32 then ((x.setWidth 32).sshiftRight y.toNat).signExtend 64 else hs k ty x y)
    else (if y.toNat < 64 then x.sshiftRight y.toNat else hs k ty x y)

/-- parse.c:2929-2960: `lty` is `lhs->ty`. -/
def evalCmp (op : CmpOp) (lty : ITy) (x y : BitVec 64) : Bool :=
  match op with
  | .eq => x == y
  | .ne => x != y
  | .lt => if lty.uns then x.ult y else x.slt y
  | .le => if lty.uns then x.ule y else x.sle y
  | .gt => if lty.uns then y.ult x else y.slt x
  | .ge => if lty.uns then y.ule x else y.sle x

def b64 (b : Bool) : BitVec 64 := if b then 1 else 0

/-- parse.c:2995-2999: the value of a cast. -/
def evalCastTo (ty : ITy) (x : BitVec 64) : BitVec 64 :=
  if ty.kind = .bool then b64 (x != 0) else signExt ty x

/-- parse.c:2851-2854: the left operand of a comma is not looked at if it is a variable. -/
def Node.isVar : Node → Bool
  | .var _ _ => true
  | _ => false

/-- parse.c:2872-3101 `eval2` (context EV_CONST) on integer nodes. `error` is `eval_error`: the
message, or the failure recorded by `is_const_expr` (parse.c:3103-3114). -/
def evalNode (hs : HostShift) : Node → Outcome (BitVec 64)
  | .num _ v => .ok v
  | .null _ => .error
  | .var _ _ => .error
  | .cast t e => do
    let x ← evalNode hs e
    .ok (evalCastTo t x)
  | .un .pos _ e => evalNode hs e
  | .un .neg t e => do
    let x ← evalNode hs e
    .ok (signExt t (-x))
  | .un .bnot t e => do
    let x ← evalNode hs e
    .ok (signExt t (~~~x))
  | .not e => do
    let x ← evalNode hs e
    .ok (b64 (x == 0))
  | .bin op t a b => do
    let x ← evalNode hs a
    let y ← evalNode hs b
    evalBin op t x y
  | .shift k t a b => do
    let x ← evalNode hs a
    let y ← evalNode hs b
    .ok (evalShift hs k t x y)
  | .cmp op a b => do
    let x ← evalNode hs a
    let y ← evalNode hs b
    .ok (b64 (evalCmp op a.ty x y))
  | .logand a b => do
    let x ← evalNode hs a
    if x = 0 then .ok 0
    else do
      let y ← evalNode hs b
      .ok (b64 (y != 0))
  | .logor a b => do
    let x ← evalNode hs a
    if x ≠ 0 then .ok 1
    else do
      let y ← evalNode hs b
      .ok (b64 (y != 0))
  | .cond _ c a b => do
    let x ← evalNode hs c
    if x ≠ 0 then evalNode hs a else evalNode hs b
  | .comma a b =>
    if a.isVar then evalNode hs b
    else do
      let _ ← evalNode hs a
      evalNode hs b
  | .assign _ _ _ => .error
  | .arithAssign _ _ _ _ => .error
  | .postIncDec _ _ _ => .error

/-- parse.c:374-377: the operand of the cast that is replaced, if `expr` is a cast made redundant
by a cast to `ty`. -/
def redundantArg (n : Node) (ty : ITy) : Option Node :=
  match n with
  | .cast t2 e => if is_redundant_cast ty t2 e.ty then some e else none
  | _ => none

/-- parse.c:346-382 `new_cast`; `opt` is `opt_optimize`. -/
def newCast (hs : HostShift) (opt : Bool) (n : Node) (ty : ITy) : Node :=
  if opt then
    match evalNode hs (.cast ty n) with
    | .ok x => .num ty x
    | _ =>
      if n.ty = ty then n
      else
        match redundantArg n ty with
        | some e => .cast ty e
        | none => .cast ty n
  else .cast ty n

/-- parse.c:384-396: the kinds `cond_cast` leaves alone. -/
def Node.isTruth : Node → Bool
  | .cmp _ _ _ | .logand _ _ | .logor _ _ | .not _ => true
  | _ => false

/-- parse.c:384-398 `cond_cast`. -/
def condCast (hs : HostShift) (opt : Bool) (n : Node) : Node :=
  if n.isTruth then n else newCast hs opt n ty_bool

/-- type.c:336-347: the part of `int_promotion` for operands that are not bit-fields. The test for
rank below `int` at the size of `int` never holds for an integer type. -/
def intPromo (hs : HostShift) (opt : Bool) (n : Node) : Node :=
  if n.ty.size < ty_int.size then newCast hs opt n ty_int else n

/-- type.c:407-411 `usual_arith_conv`; `common_promoted` does not fail on promoted operands
(theorem C14_common_type). -/
def usualConv (hs : HostShift) (opt : Bool) (a b : Node) : Node × Node :=
  let a := intPromo hs opt a
  let b := intPromo hs opt b
  let t := (common_promoted a.ty b.ty).getD a.ty
  (newCast hs opt a t, newCast hs opt b t)

/-- type.c:432-453: an arithmetic node gets its type. -/
def mkBin (hs : HostShift) (opt : Bool) (op : ArOp) (a b : Node) : Node :=
  let p := usualConv hs opt a b
  .bin op p.1.ty p.1 p.2

/-- type.c:492-501: a shift node gets its type. -/
def mkShift (hs : HostShift) (opt : Bool) (k : ShKind) (a b : Node) : Node :=
  let l := intPromo hs opt a
  .shift k l.ty l b

/-- A binary node of kind `k`; also codegen.c:968-973 `gen_expr_null_lhs`. -/
def mkArith (hs : HostShift) (opt : Bool) (k : AKind) (a b : Node) : Node :=
  match k with
  | .ar op => mkBin hs opt op a b
  | .sh s => mkShift hs opt s a b

/-- parse.c:3479-3503 `shift` and 3312-3321: `>>` is logical if the left operand is unsigned. -/
def akind (op : BinOp) (lhs : ITy) : AKind :=
  match op with
  | .ar o => .ar o
  | .sh .shl => .sh .shl
  | .sh .shr => .sh (if lhs.uns then .shr else .sar)

/-- parse.c:3956-3974 `new_inc_dec`: `x++` (`addend` 1) and `x--` (-1). -/
def newIncDec (hs : HostShift) (opt : Bool) (ty : ITy) (x : Nat) (addend : Int) : Node :=
  if opt && ty.kind != .bool then
    newCast hs opt
      (mkBin hs opt .add (.arithAssign (.ar .add) ty x (.num ty_int (BitVec.ofInt 64 addend)))
        (.num ty_int (BitVec.ofInt 64 (-addend)))) ty
  else .postIncDec ty x (.num ty_int (BitVec.ofInt 64 addend))

/-- parse.c:3272-3660: the tree built for an expression, after `add_type` (type.c:413-512). `Γ`
gives the types of the variables. -/
def build (hs : HostShift) (opt : Bool) (Γ : Nat → CTy) : Expr → Node
  | .num t v => .num (ity t) (BitVec.ofInt 64 v)
  | .var x => .var (ity (Γ x)) x
  | .cast t e => newCast hs opt (build hs opt Γ e) (ity t)
  | .un op e =>
    let n := intPromo hs opt (build hs opt Γ e)
    .un op n.ty n
  | .lnot e => .not (condCast hs opt (build hs opt Γ e))
  | .bin op a b =>
    let l := build hs opt Γ a
    mkArith hs opt (akind op l.ty) l (build hs opt Γ b)
  | .cmp op a b =>
    let p := usualConv hs opt (build hs opt Γ a) (build hs opt Γ b)
    .cmp op p.1 p.2
  | .land a b => .logand (condCast hs opt (build hs opt Γ a)) (condCast hs opt (build hs opt Γ b))
  | .lor a b => .logor (condCast hs opt (build hs opt Γ a)) (condCast hs opt (build hs opt Γ b))
  | .cond c a b =>
    let p := usualConv hs opt (build hs opt Γ a) (build hs opt Γ b)
    .cond p.1.ty (condCast hs opt (build hs opt Γ c)) p.1 p.2
  | .comma a b => .comma (build hs opt Γ a) (build hs opt Γ b)
  | .assign x e => .assign (ity (Γ x)) x (newCast hs opt (build hs opt Γ e) (ity (Γ x)))
  | .opAssign op x e => .arithAssign (akind op (ity (Γ x))) (ity (Γ x)) x (build hs opt Γ e)
  | .incr true up x =>
    .arithAssign (.ar (if up then .add else .sub)) (ity (Γ x)) x (.num ty_int 1)
  | .incr false up x => newIncDec hs opt (ity (Γ x)) x (if up then 1 else -1)

/-- parse.c:3129-3141 `const_expr`: the value of an integer constant expression. -/
def constExpr (hs : HostShift) (opt : Bool) (Γ : Nat → CTy) (e : Expr) : Outcome (BitVec 64) :=
  evalNode hs (build hs opt Γ e)

end Slimcc.Ty
