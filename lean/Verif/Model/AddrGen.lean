import Verif.Model.Addr
import Verif.Model.Gen
/-!
Model of the code generator on the trees of designators and pointer expressions (codegen.c: `gen_addr`
708-785, `load` 787-832, `store` 834-870, the parts of `gen_expr2` 1655-1690 and 2003-2025 and of
`gen_expr_opt` 2865-2959 for them, `gen_addr_opt` 2961-2988, `gen_deref_opt` 2760-2781, `gen_member_opt`
2783-2799, `is_memop` 218-267, `gen_arith_opt_gp` 2608-2672, `gen_load_opt_gp` 2723-2758).

Simplifications: those of `Model.Addr` and `Model.Gen`; position-independent code, in which the address of
a symbol is taken with `lea`; no conversion of an object to `bool` (the parser makes none in these trees
apart from assignments to `bool` objects). An offset added to that of a variable in the frame does not
overflow `int` (codegen.c:231); the operand of a symbol plus offset is a name of its own.
-/
set_option autoImplicit false
namespace Slimcc.AGen
open Slimcc.Spec (CTy OTy ODecls LV PE IE ArOp)
open Slimcc.Ty Slimcc.X86 Slimcc.Gen Slimcc.Addr

section
variable (C : Cfg) (P : ODecls) (loc : Nat → MemOp) (obj : Nat → Int → MemOp) (stk : Nat)

/-- codegen.c:196-202 `is_gp_ty`, `is_scalar`. -/
def gpTy : OTy → Bool
  | .int _ | .ptr _ => true
  | .arr _ _ | .struct _ => false

/-- The row and column of `cast_table` (codegen.c:979-1001): everything but integers is `u64`. -/
def rowTy : OTy → ITy
  | .int t => ity t
  | _ => ty_ulong

/-- codegen.c:218-224 `skip_gp_cast`. -/
def skipCastA : ANode → ANode
  | .cast t a =>
    if P.sizeof t = P.sizeof a.ty ∧ t ≠ .int .bool ∧ gpTy t ∧ gpTy a.ty then skipCastA a else .cast t a
  | n => n

/-- codegen.c:226-246 `eval_memop`. -/
def evalMemop (sub : Bool) (n : ANode) : Option MemOp := (evalVar C P sub n).map fun r => obj r.1 r.2

/-- codegen.c:248-259 `is_memop_ptr`. -/
def memopPtr (n : ANode) : Option MemOp :=
  match skipCastA P n with
  | .addr _ l => evalMemop C P obj true l
  | .cast t l =>
    match t with
    | .ptr _ => if isArr l.ty then evalMemop C P obj true l else none
    | _ => none
  | n => if isArr n.ty then evalMemop C P obj true n else none

/-- codegen.c:261-267 `is_memop`. -/
def memopA (n : ANode) : Option MemOp :=
  match skipCastA P n with
  | .int _ m => (memop m).map loc
  | n => evalMemop C P obj false n

/-- codegen.c:787-832: the load of a scalar. -/
def loadTy (t : OTy) (m : MemOp) : Ins := loadExt (rowTy t) m .ax

/-- codegen.c:806-810 `load2`: the offset is an `int`. -/
def intOfs (v : Word) : Int := (v.setWidth 32).toInt

/-- codegen.c:274-276 `is_int_to_int_cast` and `is_memop` of its operand: the operand and its type. -/
def castMem (n : ANode) : Option (MemOp × ITy) :=
  match n with
  | .cast (.int _) e =>
    match e.ty with
    | .int u => (memopA C P loc obj e).map fun m => (m, ity u)
    | _ => none
  | .int _ (.cast _ e) => (memop e).map fun x => (loc x, e.ty)
  | _ => none

/-- codegen.c:2608-2652 `gen_arith_opt_gp2`. -/
def arithA2 (recE : ANode → G) (k : ArOp) (op : Alu) (sz : Nat) (l r : ANode) (pass : Nat) : Option G :=
  match pass with
  | 0 => (constOf C P r).map fun v => recE l ;; inss (immArith k sz (limitImm v sz))
  | 1 => (memopA C P loc obj r).map fun m => recE l ;; inss [.alu op sz (.mem m) (.reg .ax)]
  | 2 =>
    match castMem C P loc obj r with
    | some (m, t) => if sz ≤ t.size then some (recE l ;; inss [.alu op sz (.mem m) (.reg .ax)]) else none
    | none => none
  | _ =>
    match castMem C P loc obj r with
    | some (m, t) =>
      if sz > t.size then
        some (recE l ;; inss [(if !t.uns && sz = 8 then loadExt64 t m .dx else loadExt t m .dx),
          .alu op sz (.reg .dx) (.reg .ax)])
      else none
    | none => none

/-- codegen.c:2654-2672 `gen_arith_opt_gp`. -/
def arithA (recE : ANode → G) (sz : Nat) (k : ArOp) (a b : ANode) : Option G :=
  match aluOf k with
  | none => none
  | some op =>
    let pass (i : Nat) : Option G :=
      (arithA2 C P loc obj recE k op sz a b i).orElse fun _ =>
        if k = .sub then none else arithA2 C P loc obj recE k op sz b a i
    (pass 0).orElse fun _ => (pass 1).orElse fun _ => (pass 2).orElse fun _ => pass 3

/-- codegen.c:2723-2758 `gen_load_opt_gp` for %rax. -/
def loadOptA (n : ANode) : Option G :=
  match memopPtr C P obj n with
  | some m => some (inss [.lea m .ax])
  | none =>
    match n with
    | .cast (.int t) e =>
      match e.ty with
      | .int u =>
        match memopA C P loc obj e with
        | some m =>
          if (ity t).size > (ity u).size then
            if !(ity u).uns && (ity t).size = 8 then some (inss [loadExt64 (ity u) m .ax])
            else if !((ity t).size = 2 && (ity t).uns && !(ity u).uns) then some (inss [loadExt (ity u) m .ax])
            else none
          else if t ≠ .bool then some (inss [loadExt (ity t) m .ax])
          else none
        | none => none
      | _ => none
    | _ => none

/-- codegen.c:2801-2863 `bool_expr_opt` and `gen_bool_opt` below a cast: the code of the innermost
truth value under conversions. -/
def boolA (recE : ANode → G) : ANode → Option G
  | .cast _ a => boolA recE a
  | .int _ m =>
    genBoolOpt C.hs C.opt (genExpr C.hs C.opt loc stk)
      (fun j l n => gen C.hs C.opt loc stk (fuel (.cond j l) n) (.cond j l) n) (.cast ty_ulong m)
  | n => if n.ty = .int .bool then some (recE n) else none

/-- codegen.c:2838-2842: only a cast has another tree below it. -/
def boolOptA (recE : ANode → G) (n : ANode) : Option G :=
  match n with
  | .cast _ a => boolA C loc stk recE a
  | _ => none

/-- The operators of these trees, with `node->ty->size`. -/
def ANode.op : ANode → Option (ArOp × ANode × ANode)
  | .add _ a b => some (.add, a, b)
  | .sub _ a b => some (.sub, a, b)
  | .mul _ a b => some (.mul, a, b)
  | _ => none

/-- codegen.c:2694-2721 `gen_gp_opt`. -/
def gpOptA (recE : ANode → G) (n : ANode) : Option G :=
  match ANode.op n with
  | some (k, a, b) => arithA C P loc obj recE (P.sizeof n.ty) k a b
  | none => none

/-- codegen.c:2907-2909: a 32-bit result of a 64-bit operator. -/
def truncOptA (recE : ANode → G) (n : ANode) : Option G :=
  match n with
  | .cast (.int t) e =>
    match ANode.op e, e.ty with
    | some (k, a, b), .int u =>
      if t.bytes = 4 ∧ u.bytes = 8 then arithA C P loc obj recE 4 k a b else none
    | _, _ => none
  | _ => none

/-- codegen.c:2760-2779: the loop of `gen_deref_opt` inside an integer expression. -/
def walkInt : Node → Node × Word
  | .bin .add t a b =>
    match evalNode C.hs b with
    | .ok v => ((walkInt a).1, (walkInt a).2 + v)
    | _ => (.bin .add t a b, 0)
  | .bin .sub t a b =>
    match evalNode C.hs b with
    | .ok v => ((walkInt a).1, (walkInt a).2 - v)
    | _ => (.bin .sub t a b, 0)
  | n => (n, 0)

/-- codegen.c:2760-2779: the loop of `gen_deref_opt`; the tree it ends at and the sum of the constants. -/
def walk : ANode → ANode × Word
  | .cast t a =>
    match t with
    | .ptr _ | .arr _ _ => walk a
    | t => (.cast t a, 0)
  | .deref t a => if isArr t then walk a else (.deref t a, 0)
  | .add t a b =>
    match constOf C P b with
    | some v => ((walk a).1, (walk a).2 + v)
    | none => (.add t a b, 0)
  | .sub t a b =>
    match constOf C P b with
    | some v => ((walk a).1, (walk a).2 - v)
    | none => (.sub t a b, 0)
  | .int t n => (.int t (walkInt C n).1, (walkInt C n).2)
  | n => (n, 0)

/-- codegen.c:2783-2787: the loop of `gen_member_opt`. -/
def memberWalk : ANode → ANode × Word
  | .member _ o a => ((memberWalk a).1, (memberWalk a).2 + BitVec.ofNat 64 o)
  | n => (n, 0)

/-- codegen.c:2865-2959 `gen_expr_opt`. -/
def exprOptA (recE recA : ANode → G) (n : ANode) : Option G :=
  match (if gpTy n.ty then constOf C P n else none) with
  | some v => some (inss (loadVal (rowTy n.ty) v))
  | none =>
  match loadOptA C P loc obj n with
  | some g => some g
  | none =>
  match (if gpTy n.ty then memopA C P loc obj n else none) with
  | some m => some (inss [loadTy n.ty m])
  | none =>
  match boolOptA C loc stk recE n with
  | some g => some g
  | none =>
  match (if gpTy n.ty then gpOptA C P loc obj recE n else none) with
  | some g => some g
  | none =>
  match truncOptA C P loc obj recE n with
  | some g => some g
  | none =>
  match (if gpTy n.ty then none else evalMemop C P obj true n) with
  | some m => some (inss [.lea m .ax])
  | none =>
  match n with
  | .deref t a =>
    some (recE (walk C P a).1 ;;
      inss (if gpTy t then [loadTy t (.off .ax (intOfs (walk C P a).2))] else immAdd 8 .ax (walk C P a).2))
  | .member t _ _ =>
    some (recA (memberWalk n).1 ;;
      inss (if gpTy t then [loadTy t (.off .ax (intOfs (memberWalk n).2))] else immAdd 8 .ax (memberWalk n).2))
  | _ => none

/-- codegen.c:812-832 `load` without an offset. -/
def loadA (t : OTy) : List Ins := if gpTy t then [loadTy t (.off .ax 0)] else []

/-- codegen.c:2003-2025: evaluate both operands. -/
def binaryA (recE : ANode → G) (k : ArOp) (a b : ANode) : G :=
  let r64 : Bool := P.sizeof a.ty = 8 || (match a.ty with | .ptr _ | .arr _ _ => true | _ => false)
  recE a ;; tmp (pushIns stk r64 .ax) (recE b) (fun l => popIn stk r64 l ++ arithEnd k false (rsz r64) (popReg l))

/-- codegen.c:1627-2060 `gen_expr2` without the shortcuts. -/
def exprPlainA (recE recA : ANode → G) (n : ANode) : G :=
  match n with
  | .int _ m => genExpr C.hs C.opt loc stk m
  | .var t _ => recA n ;; inss (loadA t)
  | .member t _ _ => recA n ;; inss (loadA t)
  | .deref t a => recE a ;; inss (loadA t)
  | .addr _ a => recA a
  | .cast t a => recE a ;; inss (castIns (rowTy a.ty) (rowTy t))
  | .add _ a b => binaryA P stk recE .add a b
  | .sub _ a b => binaryA P stk recE .sub a b
  | .mul _ a b => binaryA P stk recE .mul a b

/-- codegen.c:2961-2988 `gen_addr_opt`. -/
def addrOptA (recE recA : ANode → G) (n : ANode) : Option G :=
  match evalMemop C P obj true n with
  | some m => some (inss [.lea m .ax])
  | none =>
    match n with
    | .deref _ a => some (recE (walk C P a).1 ;; inss (immAdd 8 .ax (walk C P a).2))
    | .member _ _ _ => some (recA (memberWalk n).1 ;; inss (immAdd 8 .ax (memberWalk n).2))
    | _ => none

/-- codegen.c:710-785 `gen_addr` without the shortcuts. -/
def addrPlainA (recE recA : ANode → G) (n : ANode) : G :=
  match n with
  | .var _ x => inss [.lea (obj x 0) .ax]
  | .deref _ a => recE a
  | .member _ o a => recA a ;; inss (immAdd 8 .ax (BitVec.ofNat 64 o))
  | _ => lines []

/-- `gen_expr` or `gen_addr`. -/
inductive AMode where
  | expr | addr
  deriving DecidableEq, Repr

/-- codegen.c:1620-2065 `gen_expr` and 708-785 `gen_addr`; integer expressions are those of
`Model.Gen`. -/
def genA : Nat → AMode → ANode → G
  | 0, _, _ => lines []
  | f + 1, .expr, n =>
    match n with
    | .int _ m => genExpr C.hs C.opt loc stk m
    | n =>
      match (if C.opt then exprOptA C P loc obj stk (genA f .expr) (genA f .addr) n else none) with
      | some g => g
      | none => exprPlainA C P loc stk (genA f .expr) (genA f .addr) n
  | f + 1, .addr, n =>
    match (if C.opt then addrOptA C P obj (genA f .expr) (genA f .addr) n else none) with
    | some g => g
    | none => addrPlainA obj (genA f .expr) (genA f .addr) n

/-- The depth of a tree. -/
def height : ANode → Nat
  | .int _ _ | .var _ _ => 1
  | .deref _ a | .member _ _ a | .addr _ a | .cast _ a => height a + 1
  | .add _ a b | .sub _ a b | .mul _ a b => height a + height b + 1

def genExprA (n : ANode) : G := genA C P loc obj stk (2 * height n + 1) .expr n
def genAddrA (n : ANode) : G := genA C P loc obj stk (2 * height n) .addr n

/-- codegen.c:1672-1690 ND_ASSIGN, with 2893-2897 and `store` (858-865), for a scalar. -/
def genAssign (l r : ANode) : G :=
  match (if C.opt then memopA C P loc obj l else none) with
  | some m => genExprA C P loc obj stk r ;; inss [.mov (rowTy l.ty).size (.reg .ax) (.mem m)]
  | none =>
    genAddrA C P loc obj stk l ;;
      tmp (pushIns stk true .ax) (genExprA C P loc obj stk r)
        (fun p => popIn stk true p ++ [.mov (rowTy l.ty).size (.reg .ax) (.mem (.off (popReg p) 0))])

/-- The address of an lvalue. -/
def compileAddr (l : LV) : G := genAddrA C P loc obj stk (buildL C P l)
/-- The value of an lvalue, or its address if it is an array or structure. -/
def compileLV (l : LV) : G := genExprA C P loc obj stk (buildL C P l)
/-- The value of a pointer expression. -/
def compilePE (p : PE) : G := genExprA C P loc obj stk (buildP C P p)
/-- type.c:502-505, parse.c:346-382: the right operand is converted to the type of the left one. -/
def compileSetInt (t : CTy) (l : LV) (i : IE) : G :=
  genAssign C P loc obj stk (buildL C P l) (castA C P (buildI C P i) (.int t))
def compileSetPtr (t : OTy) (l : LV) (p : PE) : G :=
  genAssign C P loc obj stk (buildL C P l) (castA C P (buildP C P p) (.ptr t))

end
end Slimcc.AGen
