import Verif.Model.AddrOp
import Verif.Model.BitField
/-!
Model of compound assignments and increments of bit-fields (codegen.c:1684-1700 ND_ARITH_ASSIGN and
ND_POST_INCDEC with `load`, 807-832, and `store`, 862-880, of bit-fields; 2265-2292
`gen_void_arith_assign`; parse.c:3257-3267 `to_assign`, 3956-3974 `new_inc_dec`).

The designator `l` stands for the member, that is, for the storage unit: `gen_addr` of a member that is a
bit-field is the address of the structure plus the offset of the unit, as for other members
(codegen.c:737-741, 2980-2985). Simplifications: those of Model/AddrOp.lean.
-/
set_option autoImplicit false
namespace Slimcc.AGen
open Slimcc.Spec (CTy ODecls LV BinOp Expr)
open Slimcc.Ty Slimcc.X86 Slimcc.Gen Slimcc.Addr

section
variable (C : Cfg) (P : ODecls) (loc : Nat → MemOp) (obj : Nat → Int → MemOp) (stk : Nat)

/-- codegen.c:1684-1690 ND_ARITH_ASSIGN of a bit-field; `n` is the tree `gen_expr_null_lhs` makes, whose left
operand is the value in %rax. -/
def genOpB (n : Node) (f : BF.BF) (l : ANode) (isVoid : Bool) : G :=
  genAddrA C P loc obj stk l ;;
    tmp (pushIns stk true .ax) (inss (BF.load f 0) ;; genExpr C.hs C.opt loc stk n) (fun p => BF.store f stk p isVoid)

/-- codegen.c:1691-1700 ND_POST_INCDEC of a bit-field; parse.c:3962 makes this node for bit-fields also with
optimisation. -/
def genPostB (n : Node) (f : BF.BF) (l : ANode) : G :=
  genAddrA C P loc obj stk l ;; inss (.mov 8 (.reg .ax) (.reg .cx) :: BF.load f 0) ;;
    tmp (pushIns stk true .ax)
      (tmp (pushIns stk true .cx) (genExpr C.hs C.opt loc stk n) (fun p => BF.store f stk p true))
      (fun p => popTo stk true .ax p)

/-- `l op= e` for the field of width `w` at bit `bo` of the unit `l` of type `t`; `isVoid` tells that the
value is not used (codegen.c:2275 and 2291: bit-fields take the general path). `gen_expr_null_lhs` gives the
left operand the declared type (codegen.c:972-977). -/
def compileOpBit (isVoid : Bool) (op : BinOp) (t : CTy) (w bo : Nat) (l : LV) (e : Expr) : G :=
  genOpB C P loc obj stk (nullLhs C.hs C.opt (akind op (ity t)) (ity t) (build C.hs C.opt P.ints e)) ⟨ity t, w, bo⟩ (buildL C P l) isVoid
/-- `++l` and `--l`, which are `l += 1` and `l -= 1` (parse.c:3677-3683). -/
def compilePreBit (isVoid up : Bool) (t : CTy) (w bo : Nat) (l : LV) : G :=
  compileOpBit C P loc obj stk isVoid (.ar (if up then .add else .sub)) t w bo l (.num .int 1)
/-- `l++` and `l--`: `new_add` of 1 or -1 (parse.c:3970). -/
def compilePostBit (up : Bool) (t : CTy) (w bo : Nat) (l : LV) : G :=
  genPostB C P loc obj stk (nullLhs C.hs C.opt (.ar .add) (ity t) (.num ty_int (BitVec.ofInt 64 (if up then 1 else -1)))) ⟨ity t, w, bo⟩ (buildL C P l)
/-- `l++;` and `l--;` (codegen.c:2266-2269). -/
def compilePostBitVoid (up : Bool) (t : CTy) (w bo : Nat) (l : LV) : G :=
  genOpB C P loc obj stk (nullLhs C.hs C.opt (.ar .add) (ity t) (.num ty_int (BitVec.ofInt 64 (if up then 1 else -1)))) ⟨ity t, w, bo⟩ (buildL C P l) true

end
end Slimcc.AGen
