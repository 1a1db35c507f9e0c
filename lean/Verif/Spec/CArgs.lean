import Verif.Spec.Sequenced
/-!
The arguments of a call (C23 6.5.3.3), for arguments of integer type.
-/
set_option autoImplicit false
namespace Slimcc.Spec

/-- An argument: the type of its parameter, if the function's type says so, and the expression. -/
structure Actual where
  param : Option CTy
  e : Expr
  deriving Repr

/-- The type the argument is converted to: that of the parameter, or the promoted type of the
expression for an argument that the `...` receives or of a function declared without parameters. -/
def Actual.ty (Γ : Nat → CTy) (a : Actual) : CTy :=
  match a.param with
  | some t => t
  | none => (a.e.ty Γ).promote

/-- The arguments are unsequenced with respect to one another: no argument assigns a variable that
another one uses, otherwise the behaviour is undefined (C23 6.5.1p2). -/
def Independent (as : List Actual) : Prop :=
  ∀ (i j : Nat) (a b : Actual), as[i]? = some a → as[j]? = some b → i ≠ j → ∀ x ∈ a.e.assigned, x ∉ b.e.vars

/-- Evaluation of the arguments one after the other. -/
def cevals (Γ : Nat → CTy) : List Actual → Store → Res (List Int × Store)
  | [], σ => .ok ([], σ)
  | a :: as, σ => do
    let (w, σ) ← ceval Γ a.e σ
    let (vs, σ) ← cevals Γ as σ
    .ok (CTy.conv (a.ty Γ) w :: vs, σ)

end Slimcc.Spec
