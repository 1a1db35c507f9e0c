import Verif.Model.AddrGen
/-!
Model of compound assignments and increments of members, array elements and what pointers point to
(codegen.c:1684-1700 ND_ARITH_ASSIGN and ND_POST_INCDEC, 2234-2292 `memop_arith` and
`gen_void_arith_assign`; parse.c:3257-3267 `to_assign`, 3956-3974 `new_inc_dec`).

Simplifications: those of `Model.AddrGen`; the left operand is an integer object that is neither atomic nor
a bit-field, the right operand an expression over integer variables.
-/
set_option autoImplicit false
namespace Slimcc.AGen
open Slimcc.Spec (CTy OTy ODecls LV PE IE ArOp BinOp Expr)
open Slimcc.Ty Slimcc.X86 Slimcc.Gen Slimcc.Addr

section
variable (C : Cfg) (P : ODecls) (loc : Nat → MemOp) (obj : Nat → Int → MemOp) (stk : Nat)

/-- codegen.c:834-870 `store`, of an integer. -/
def storeA (t : CTy) (p : TLoc) : List Ins := popIn stk true p ++ [.mov t.bytes (.reg .ax) (.mem (.off (popReg p) 0))]

/-- codegen.c:1684-1690 ND_ARITH_ASSIGN; `n` is the tree `gen_expr_null_lhs` makes
(codegen.c:972-977), whose left operand is the value in %rax. -/
def genOpN (n : Node) (t : CTy) (l : ANode) : G :=
  genAddrA C P loc obj stk l ;;
    tmp (pushIns stk true .ax) (inss (loadA (.int t)) ;; genExpr C.hs C.opt loc stk n) (storeA stk t)

/-- The same for an operation on integers. -/
def genOp (k : AKind) (t : CTy) (l : ANode) (r : Node) : G := genOpN C P loc obj stk (nullLhs C.hs C.opt k (ity t) r) t l

/-- parse.c:3956-3974 `new_inc_dec` and codegen.c:1691-1700 ND_POST_INCDEC. With optimisation `l++` is
`(T)((l += 1) + -1)`: the compound assignment comes first and leaves its value in %rax, and the rest of that
tree is generated as if its leftmost operand were already there. `n` and `n'` are the trees for `+ 1` and
`+ -1`. -/
def genPostN (t : CTy) (l : ANode) (n n' : Node) : G :=
  if C.opt && t ≠ .bool then
    genOpN C P loc obj stk n t l ;; genExpr C.hs C.opt loc stk n'
  else
    genAddrA C P loc obj stk l ;; inss (.mov 8 (.reg .ax) (.reg .cx) :: loadA (.int t)) ;;
      tmp (pushIns stk true .ax)
        (tmp (pushIns stk true .cx) (genExpr C.hs C.opt loc stk n) (storeA stk t))
        (fun p => popTo stk true .ax p)

/-- The same for an integer. -/
def genPost (t : CTy) (l : ANode) (d : Int) : G :=
  genPostN C P loc obj stk t l (nullLhs C.hs C.opt (.ar .add) (ity t) (.num ty_int (BitVec.ofInt 64 d)))
    (nullLhs C.hs C.opt (.ar .add) (ity t) (.num ty_int (BitVec.ofInt 64 (-d))))

/-- codegen.c:2234-2263 `memop_arith`. -/
def memopArithA (ins : Alu) (t : CTy) (l : ANode) (rhs : Node) : G :=
  match evalNode C.hs rhs, memopA C P loc obj l with
  | .ok v, some m => inss (immTmpl (fun o => .alu ins t.bytes o (.mem m)) (limitImm v t.bytes))
  | .ok v, none =>
    genAddrA C P loc obj stk l ;; inss (immTmpl (fun o => .alu ins t.bytes o (.mem (.off .ax 0))) (limitImm v t.bytes))
  | _, some m => genExpr C.hs C.opt loc stk rhs ;; inss [.alu ins t.bytes (.reg .ax) (.mem m)]
  | _, none =>
    genAddrA C P loc obj stk l ;;
      tmp (pushIns stk true .ax) (genExpr C.hs C.opt loc stk rhs)
        (fun p => popIn stk true p ++ [.alu ins t.bytes (.reg .ax) (.mem (.off (popReg p) 0))])

/-- codegen.c:2265-2292 `gen_void_arith_assign`. -/
def genOpVoid (k : AKind) (t : CTy) (l : ANode) (r : Node) : G :=
  match k with
  | .ar op =>
    match (if op = .mul then none else aluOf op) with
    | some ins =>
      if C.opt && t ≠ .bool then memopArithA C P loc obj stk ins t l (usualConv C.hs C.opt (.null (ity t)) r).2
      else genOp C P loc obj stk k t l r
    | none => genOp C P loc obj stk k t l r
  | .sh _ => genOp C P loc obj stk k t l r

/-- `l op= e`. -/
def compileOpInt (op : BinOp) (t : CTy) (l : LV) (e : Expr) : G :=
  genOp C P loc obj stk (akind op (ity t)) t (buildL C P l) (build C.hs C.opt P.ints e)
/-- `++l` and `--l`, which are `l += 1` and `l -= 1` (parse.c:3677-3683). -/
def compilePre (up : Bool) (t : CTy) (l : LV) : G := compileOpInt C P loc obj stk (.ar (if up then .add else .sub)) t l (.num .int 1)
/-- `l++` and `l--`. -/
def compilePost (up : Bool) (t : CTy) (l : LV) : G := genPost C P loc obj stk t (buildL C P l) (if up then 1 else -1)
/-- `l op= e;` as a statement. -/
def compileOpVoid (op : BinOp) (t : CTy) (l : LV) (e : Expr) : G :=
  genOpVoid C P loc obj stk (akind op (ity t)) t (buildL C P l) (build C.hs C.opt P.ints e)
/-- `l++;` and `l--;` as statements (codegen.c:2336-2356 strips conversions and sums). -/
def compilePostVoid (up : Bool) (t : CTy) (l : LV) : G :=
  genOpVoid C P loc obj stk (.ar .add) t (buildL C P l) (.num ty_int (BitVec.ofInt 64 (if up then 1 else -1)))

end
end Slimcc.AGen
