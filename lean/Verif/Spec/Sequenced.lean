import Verif.Spec.CExpr
/-!
Variables of expressions, and expressions whose operands do not interfere: C leaves the order of
the operands of a binary operator open, and an expression in which the right operand assigns a
variable that the left operand uses (or `x op= e` where `e` assigns `x`) has undefined behaviour
(C23 6.5.1p2).
-/
set_option autoImplicit false
namespace Slimcc.Spec

/-- Variables that occur in the expression. -/
def Expr.vars : Expr → List Nat
  | .num _ _ => []
  | .var x => [x]
  | .cast _ e => e.vars
  | .un _ e => e.vars
  | .lnot e => e.vars
  | .bin _ a b => a.vars ++ b.vars
  | .cmp _ a b => a.vars ++ b.vars
  | .land a b => a.vars ++ b.vars
  | .lor a b => a.vars ++ b.vars
  | .cond c a b => c.vars ++ (a.vars ++ b.vars)
  | .comma a b => a.vars ++ b.vars
  | .assign x e => x :: e.vars
  | .opAssign _ x e => x :: e.vars
  | .incr _ _ x => [x]

/-- Variables that the expression may assign. -/
def Expr.assigned : Expr → List Nat
  | .num _ _ => []
  | .var _ => []
  | .cast _ e => e.assigned
  | .un _ e => e.assigned
  | .lnot e => e.assigned
  | .bin _ a b => a.assigned ++ b.assigned
  | .cmp _ a b => a.assigned ++ b.assigned
  | .land a b => a.assigned ++ b.assigned
  | .lor a b => a.assigned ++ b.assigned
  | .cond c a b => c.assigned ++ (a.assigned ++ b.assigned)
  | .comma a b => a.assigned ++ b.assigned
  | .assign x e => x :: e.assigned
  | .opAssign _ x e => x :: e.assigned
  | .incr _ _ x => [x]

/-- No operand of an arithmetic or comparison operator uses a variable that the operand to its right
assigns. -/
def Expr.Sequenced : Expr → Prop
  | .num _ _ => True
  | .var _ => True
  | .cast _ e => e.Sequenced
  | .un _ e => e.Sequenced
  | .lnot e => e.Sequenced
  | .bin _ a b => a.Sequenced ∧ b.Sequenced ∧ ∀ x ∈ a.vars, x ∉ b.assigned
  | .cmp _ a b => a.Sequenced ∧ b.Sequenced ∧ ∀ x ∈ a.vars, x ∉ b.assigned
  | .land a b => a.Sequenced ∧ b.Sequenced
  | .lor a b => a.Sequenced ∧ b.Sequenced
  | .cond c a b => c.Sequenced ∧ a.Sequenced ∧ b.Sequenced
  | .comma a b => a.Sequenced ∧ b.Sequenced
  | .assign _ e => e.Sequenced
  | .opAssign _ x e => e.Sequenced ∧ x ∉ e.assigned
  | .incr _ _ _ => True

end Slimcc.Spec
