import Verif.Spec.FpExpr
/-!
Assignments to variables of arithmetic type, the right operands being expressions with floating operands (Spec/FpExpr),
converted to the type of the variable by a cast.
-/
set_option autoImplicit false
namespace Slimcc.Spec.FP
open Slimcc.Spec Slimcc.X86 Slimcc.FP

/-- Names with the same place and type are names of the same variable. -/
def FEnv.Same (E : FEnv) (x y : Nat) : Prop := E.loc y = E.loc x ∧ E.Γ y = E.Γ x
instance (E : FEnv) (x y : Nat) : Decidable (E.Same x y) := inferInstanceAs (Decidable (_ ∧ _))

/-- The variable overlaps no other. -/
def FEnv.Alone (E : FEnv) (x : Nat) : Prop := ∀ y, E.Same x y ∨ Disj (E.addr x) (E.Γ x).size (E.addr y) (E.Γ y).size

/-- The values of the variables after one was given the value `v`. -/
def FEnv.set (E : FEnv) (σ : Nat → Val) (x : Nat) (v : Val) : Nat → Val := fun y => if E.Same x y then v else σ y

/-- `x1 = e1; x2 = e2; …`, one after the other, as C executes them. -/
inductive Performs (E : FEnv) : (Nat → Val) → List (Nat × FE) → (Nat → Val) → Prop
  | done (σ : Nat → Val) : Performs E σ [] σ
  | next {σ σ' : Nat → Val} {x : Nat} {e : FE} {v : Val} {r : List (Nat × FE)} : Eval E.Γ σ e v → Performs E (E.set σ x v) r σ' → Performs E σ ((x, e) :: r) σ'

/-- What an assignment to `x` does not change: as `Leaves`, but for the variable. -/
structure LeavesBut (E : FEnv) (x k f : Nat) (s s' : FS) : Prop where
  bp : s'.g.r .bp = s.g.r .bp
  tmp : ∀ i, s'.g.r (.tmp i) = s.g.r (.tmp i)
  cw : s'.cw = s.cw
  xmm : ∀ i, 2 + f ≤ i → s'.xmm i = s.xmm i
  mem : ∀ a, ¬ InBlk (E.addr x) (E.Γ x).size a → ¬ InBlk (E.sp - 24) 24 a → (∀ i, i < k → ¬ InBlk (E.slot i) 8 a) → s'.g.m a = s.g.m a

end Slimcc.Spec.FP
