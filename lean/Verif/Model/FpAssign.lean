import Verif.Model.FpExpr
/-!
Model of assignments to variables with floating operands (codegen.c:2895-2899 ND_ASSIGN in `gen_expr_opt`, 834-852 `store3`, 2294-2334 `gen_void_assign`),
with optimization, which is the default.

Simplifications: those of Model/FpExpr.lean. Statements that only copy a long double are left out (`movups`), so are
assignments without optimization.
-/
set_option autoImplicit false
namespace Slimcc.FP
open Slimcc.Spec Slimcc.Spec.FP Slimcc.X86 Slimcc.Gen

/-- codegen.c:834-852 `store3`. -/
def store3 (t : VTy) (m : MemOp) : List FLine :=
  match t with
  | .flo .float => [.i (.movst false 0 m)]
  | .flo .double => [.i (.movst true 0 m)]
  | .flo .ldouble => [.i (.fstpt m), .i .fninit, .i (.fldt m)]
  | .int t => gps [.mov t.bytes (.reg .ax) (.mem m)]

/-- codegen.c:2895-2899: `x = e`. -/
def genAssign (Γ : Nat → VTy) (loc : Nat → MemOp) (stk : Nat) (x : Nat) (e : FE) : FOut :=
  let r := genF true Γ loc stk e
  { r with code := r.code ++ store3 (Γ x) (loc x) }

/-- codegen.c:557-571 `gen_mem_copy2` for the sizes 1, 2, 4 and 8. -/
def copyVar (n : Nat) (src dst : MemOp) : List FLine := gps [.mov n (.mem src) (.reg .dx), .mov n (.reg .dx) (.mem dst)]

/-- codegen.c:2294-2334 `gen_void_assign` for variables: constants of integer type (2298-2302, 2234-2245 `memop_arith`), copies of
variables (2304-2311), other values. -/
def genVoid (Γ : Nat → VTy) (loc : Nat → MemOp) (stk : Nat) (x : Nat) (e : FE) : FOut :=
  match Γ x, foldI Γ e with
  | .int t, some z => plain (gps (immTmpl (fun o => .mov t.bytes o (.mem (loc x))) (limitImm (BitVec.ofInt 64 z) t.bytes)))
  | _, _ =>
    match e with
    | .var y => plain (copyVar (Γ x).size (loc y) (loc x))
    | _ => genAssign Γ loc stk x e

/-- The code of several such statements (codegen.c:2117-2119, 2131-2134). -/
def genAssigns (Γ : Nat → VTy) (loc : Nat → MemOp) (stk : Nat) : List (Nat × FE) → List FLine
  | [] => []
  | (x, e) :: r => (genVoid Γ loc stk x e).code ++ genAssigns Γ loc stk r

end Slimcc.FP
