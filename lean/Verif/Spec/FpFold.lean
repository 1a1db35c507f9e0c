import Verif.Spec.FpExpr
/-! When computing constants in long double gives the values of the types; when `!` may be taken into a comparison. -/
set_option autoImplicit false
namespace Slimcc.Spec.FP
open Slimcc.Spec Slimcc.Spec.CTy Slimcc.X86 Slimcc.FP

/-- Without variables. -/
def FE.closed : FE → Bool
  | .var _ => false
  | .inum .. => true
  | .num .. => true
  | .neg e => e.closed
  | .bin _ a b => a.closed && b.closed
  | .cmp _ a b => a.closed && b.closed
  | .not e => e.closed
  | .cast _ e => e.closed

/-- At each operator on constants: rounding a result to the precision of long double first does not change the number it is
rounded to, and an integer that is converted has its value in the floating type. -/
def Kept (Γ : Nat → VTy) (σ : Nat → Val) : FE → Prop
  | .var _ => True
  | .inum .. => True
  | .num .. => True
  | .neg e => Kept Γ σ e
  | .bin op a b => Kept Γ σ a ∧ Kept Γ σ b ∧ (a.closed = true → b.closed = true → ∀ f x y r q, a.ty Γ = .flo f → f ≠ .ldouble →
      Eval Γ σ a (.f x) → Eval Γ σ b (.f y) → op.Result f.fmt x y r → op.Result f80 x y q → Converted f.fmt q r)
  | .cmp _ a b => Kept Γ σ a ∧ Kept Γ σ b
  | .not e => Kept Γ σ e
  | .cast t e => Kept Γ σ e ∧ (e.closed = true → ∀ f z r, t = .flo f → Eval Γ σ e (.i z) → FromInt f.fmt z r → r.val = some (z : ℚ))

/-- Below an odd number of `!` (`flip`) no `<`, `<=`, `>`, `>=` has an operand that is not a number. -/
def Ordered (Γ : Nat → VTy) (σ : Nat → Val) (flip : Bool) : FE → Prop
  | .not a => Ordered Γ σ (!flip) a
  | .cmp op a b => flip = true → op ≠ .eq → op ≠ .ne → ∀ x y, Eval Γ σ a (.f x) → Eval Γ σ b (.f y) → x ≠ .nan ∧ y ≠ .nan
  | _ => True

/-- That at every `!`. -/
def Comparable (Γ : Nat → VTy) (σ : Nat → Val) : FE → Prop
  | .var _ => True
  | .inum .. => True
  | .num .. => True
  | .neg e => Comparable Γ σ e
  | .bin _ a b => Comparable Γ σ a ∧ Comparable Γ σ b
  | .cmp _ a b => Comparable Γ σ a ∧ Comparable Γ σ b
  | .not e => Comparable Γ σ e ∧ Ordered Γ σ true e
  | .cast _ e => Comparable Γ σ e

end Slimcc.Spec.FP
