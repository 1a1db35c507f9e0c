import Verif.Model.Gen
/-!
From a source expression to code: the parser's tree (`build`), then the code generator. The label
counter is the argument of a `G`; the result has the code, the numbers of temporary registers and
stack slots used, and the new counter.
-/
set_option autoImplicit false
namespace Slimcc.Gen
open Slimcc.Ty Slimcc.Spec Slimcc.X86

section
variable (hs : HostShift) (opt : Bool) (Γ : Nat → CTy) (loc : Nat → MemOp) (stk : Nat)

/-- codegen.c:2062-2065 `gen_expr` on the tree of an expression. -/
def compileExpr (e : Expr) : G := genExpr hs opt loc stk (build hs opt Γ e)

/-- codegen.c:2336-2384 `gen_void_expr` on the tree of an expression (expression statements, the
third part of `for`). -/
def compileVoid (e : Expr) : G := gen hs opt loc stk (fuel .void (build hs opt Γ e)) .void (build hs opt Γ e)

/-- codegen.c:1532-1597 `gen_cond` on the tree of a condition (parse.c:2516, 2573, 2597, 2614:
`cond_cast`): jump to `l` if the truth value is `j`. -/
def compileCond (j : Bool) (l : Label) (e : Expr) : G :=
  gen hs opt loc stk (fuel (.cond j l) (condCast hs opt (build hs opt Γ e))) (.cond j l) (condCast hs opt (build hs opt Γ e))

end
end Slimcc.Gen
