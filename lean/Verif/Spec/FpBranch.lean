import Verif.Spec.FpAssign
import Verif.Spec.FpFold
/-!
Statements with assignments and branches on conditions with floating operands. A condition is made with `!`, `&&` and `||` of
relations and, for floating operands that are compared with zero, their conversions to `bool`.
-/
set_option autoImplicit false
namespace Slimcc.Spec.FP
open Slimcc.Spec Slimcc.X86 Slimcc.FP

inductive FC where
  | leaf (e : FE)
  | not (c : FC)
  | and (a b : FC)
  | or (a b : FC)
  deriving Repr

/-- The truth value of a condition; the right operand of `&&` and `||` is evaluated only if the left one does not decide. -/
inductive Truth (Γ : Nat → VTy) (σ : Nat → Val) : FC → Bool → Prop
  | leaf {e : FE} {z : ℤ} : Eval Γ σ e (.i z) → Truth Γ σ (.leaf e) (decide (z ≠ 0))
  | not {c : FC} {v : Bool} : Truth Γ σ c v → Truth Γ σ (.not c) (!v)
  | andF {a b : FC} : Truth Γ σ a false → Truth Γ σ (.and a b) false
  | andT {a b : FC} {v : Bool} : Truth Γ σ a true → Truth Γ σ b v → Truth Γ σ (.and a b) v
  | orT {a b : FC} : Truth Γ σ a true → Truth Γ σ (.or a b) true
  | orF {a b : FC} {v : Bool} : Truth Γ σ a false → Truth Γ σ b v → Truth Γ σ (.or a b) v

inductive FStm where
  | skip
  | assign (x : Nat) (e : FE)
  | seq (a b : FStm)
  | ifThen (c : FC) (a : FStm)
  | ifElse (c : FC) (a b : FStm)
  deriving Repr

/-- Execution as C has it. -/
inductive Exec (E : FEnv) : (Nat → Val) → FStm → (Nat → Val) → Prop
  | skip (σ : Nat → Val) : Exec E σ .skip σ
  | assign {σ : Nat → Val} {x : Nat} {e : FE} {v : Val} : Eval E.Γ σ e v → Exec E σ (.assign x e) (E.set σ x v)
  | seq {σ σ1 σ2 : Nat → Val} {a b : FStm} : Exec E σ a σ1 → Exec E σ1 b σ2 → Exec E σ (.seq a b) σ2
  | thenT {σ σ' : Nat → Val} {c : FC} {a : FStm} : Truth E.Γ σ c true → Exec E σ a σ' → Exec E σ (.ifThen c a) σ'
  | thenF {σ : Nat → Val} {c : FC} {a : FStm} : Truth E.Γ σ c false → Exec E σ (.ifThen c a) σ
  | elseT {σ σ' : Nat → Val} {c : FC} {a b : FStm} : Truth E.Γ σ c true → Exec E σ a σ' → Exec E σ (.ifElse c a b) σ'
  | elseF {σ σ' : Nat → Val} {c : FC} {a b : FStm} : Truth E.Γ σ c false → Exec E σ b σ' → Exec E σ (.ifElse c a b) σ'

/-- The operand below the `!`s of an expression. -/
def FE.core : FE → FE
  | .not e => e.core
  | e => e

/-- The labels with names that a text defines; 1 and 2 stand for the numeric labels, which may be defined again. -/
def namedLabels (l : List FLine) : List Nat := l.filterMap fun
  | .lab k => if 3 ≤ k then some k else none
  | _ => none

/-- The labels with names that a text jumps to. -/
def namedJumps (l : List FLine) : List Nat := l.filterMap fun
  | .jmp k => if 3 ≤ k then some k else none
  | .jcc _ k => if 3 ≤ k then some k else none
  | _ => none

end Slimcc.Spec.FP
