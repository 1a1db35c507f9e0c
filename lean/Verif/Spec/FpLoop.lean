import Verif.Spec.FpBranch
import Mathlib.Logic.Relation
/-!
Statements with assignments, branches and loops on conditions with floating operands.
-/
set_option autoImplicit false
namespace Slimcc.Spec.FP
open Slimcc.Spec Slimcc.X86 Slimcc.FP

/-- `for (; c; i) a` is `loop c a i`, `while (c) a` is `loop c a skip`, and `for (;; i) a` is `ever a i`. -/
inductive LStm where
  | skip
  | assign (x : Nat) (e : FE)
  | seq (a b : LStm)
  | ifThen (c : FC) (a : LStm)
  | ifElse (c : FC) (a b : LStm)
  | loop (c : FC) (a i : LStm)
  | ever (a i : LStm)
  | doWhile (a : LStm) (c : FC)
  | brk
  | cont
  deriving Repr

/-- How the execution of a statement ends: at its end, with `break` or with `continue`. -/
inductive LEnd where
  | normal | brk | cont
  deriving DecidableEq, Repr

/-- Execution that ends, as C has it. -/
inductive LExec (E : FEnv) : (Nat → Val) → LStm → LEnd → (Nat → Val) → Prop
  | skip (σ : Nat → Val) : LExec E σ .skip .normal σ
  | brk (σ : Nat → Val) : LExec E σ .brk .brk σ
  | cont (σ : Nat → Val) : LExec E σ .cont .cont σ
  | assign {σ : Nat → Val} {x : Nat} {e : FE} {v : Val} : Eval E.Γ σ e v → LExec E σ (.assign x e) .normal (E.set σ x v)
  | seq {σ σ1 σ2 : Nat → Val} {a b : LStm} {o : LEnd} : LExec E σ a .normal σ1 → LExec E σ1 b o σ2 → LExec E σ (.seq a b) o σ2
  | seqX {σ σ1 : Nat → Val} {a b : LStm} {o : LEnd} : LExec E σ a o σ1 → o ≠ .normal → LExec E σ (.seq a b) o σ1
  | thenT {σ σ' : Nat → Val} {c : FC} {a : LStm} {o : LEnd} : Truth E.Γ σ c true → LExec E σ a o σ' → LExec E σ (.ifThen c a) o σ'
  | thenF {σ : Nat → Val} {c : FC} {a : LStm} : Truth E.Γ σ c false → LExec E σ (.ifThen c a) .normal σ
  | elseT {σ σ' : Nat → Val} {c : FC} {a b : LStm} {o : LEnd} : Truth E.Γ σ c true → LExec E σ a o σ' → LExec E σ (.ifElse c a b) o σ'
  | elseF {σ σ' : Nat → Val} {c : FC} {a b : LStm} {o : LEnd} : Truth E.Γ σ c false → LExec E σ b o σ' → LExec E σ (.ifElse c a b) o σ'
  | loopF {σ : Nat → Val} {c : FC} {a i : LStm} : Truth E.Γ σ c false → LExec E σ (.loop c a i) .normal σ
  | loopB {σ σ1 : Nat → Val} {c : FC} {a i : LStm} : Truth E.Γ σ c true → LExec E σ a .brk σ1 → LExec E σ (.loop c a i) .normal σ1
  | loopT {σ σ1 σ2 σ' : Nat → Val} {c : FC} {a i : LStm} {o : LEnd} : Truth E.Γ σ c true → LExec E σ a o σ1 → o ≠ .brk → LExec E σ1 i .normal σ2 →
      LExec E σ2 (.loop c a i) .normal σ' → LExec E σ (.loop c a i) .normal σ'
  | everB {σ σ1 : Nat → Val} {a i : LStm} : LExec E σ a .brk σ1 → LExec E σ (.ever a i) .normal σ1
  | everT {σ σ1 σ2 σ' : Nat → Val} {a i : LStm} {o : LEnd} : LExec E σ a o σ1 → o ≠ .brk → LExec E σ1 i .normal σ2 → LExec E σ2 (.ever a i) .normal σ' →
      LExec E σ (.ever a i) .normal σ'
  | doB {σ σ1 : Nat → Val} {c : FC} {a : LStm} : LExec E σ a .brk σ1 → LExec E σ (.doWhile a c) .normal σ1
  | doF {σ σ1 : Nat → Val} {c : FC} {a : LStm} {o : LEnd} : LExec E σ a o σ1 → o ≠ .brk → Truth E.Γ σ1 c false → LExec E σ (.doWhile a c) .normal σ1
  | doT {σ σ1 σ' : Nat → Val} {c : FC} {a : LStm} {o : LEnd} : LExec E σ a o σ1 → o ≠ .brk → Truth E.Γ σ1 c true → LExec E σ1 (.doWhile a c) .normal σ' →
      LExec E σ (.doWhile a c) .normal σ'

/-- One round of a `for` or `while` loop after which there is another test. -/
def Round (E : FEnv) (c : FC) (a i : LStm) (σ σ' : Nat → Val) : Prop := Truth E.Γ σ c true ∧ ∃ m o, o ≠ LEnd.brk ∧ LExec E σ a o m ∧ LExec E m i .normal σ'

/-- The same of a loop without condition. -/
def EverRound (E : FEnv) (a i : LStm) (σ σ' : Nat → Val) : Prop := ∃ m o, o ≠ LEnd.brk ∧ LExec E σ a o m ∧ LExec E m i .normal σ'

/-- One round of a `do` loop after which there is another one. -/
def Again (E : FEnv) (a : LStm) (c : FC) (σ σ' : Nat → Val) : Prop := ∃ o, o ≠ LEnd.brk ∧ LExec E σ a o σ' ∧ Truth E.Γ σ' c true

/-- `break` and `continue` are inside loops (or the statement is, if `l`). -/
def LStm.Placed : LStm → Bool → Prop
  | .skip, _ => True
  | .assign .., _ => True
  | .seq a b, l => a.Placed l ∧ b.Placed l
  | .ifThen _ a, l => a.Placed l
  | .ifElse _ a b, l => a.Placed l ∧ b.Placed l
  | .loop _ a i, _ => a.Placed true ∧ i.Placed false
  | .ever a i, _ => a.Placed true ∧ i.Placed false
  | .doWhile a _, _ => a.Placed true
  | .brk, l => l = true
  | .cont, l => l = true

end Slimcc.Spec.FP
