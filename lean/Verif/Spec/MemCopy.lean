import Verif.Model.MemCopy
/-! Which memory an instruction of a block copy reads and writes. -/
set_option autoImplicit false
namespace Slimcc.Spec
open Slimcc.X86 Slimcc.MemCopy

/-- The memory operand read, with the number of bytes. -/
def VReads : VIns → MemOp → Nat → Prop
  | .gp (.mov n (.mem m) _), m', n' => m = m' ∧ n = n'
  | .gp (.mov _ _ _), _, _ => False
  | .gp (.alu _ _ (.reg _) (.reg _)), _, _ => False
  | .gp _, _, _ => True
  | .ldx m, m', n' => m = m' ∧ n' = 16
  | _, _, _ => False

/-- The memory operand written, with the number of bytes. -/
def VWrites : VIns → MemOp → Nat → Prop
  | .gp (.mov n _ (.mem m)), m', n' => m = m' ∧ n = n'
  | .gp (.mov _ _ _), _, _ => False
  | .gp (.alu _ _ (.reg _) (.reg _)), _, _ => False
  | .gp _, _, _ => True
  | .stx m, m', n' => m = m' ∧ n' = 16
  | _, _, _ => False

/-- The operand is `n` bytes inside `ofs(reg) .. ofs+sz(reg)`. -/
def Within (reg : Reg) (ofs : Int) (sz : Nat) (m : MemOp) (n : Nat) : Prop :=
  ∃ k : Nat, m = .off reg (k + ofs) ∧ k + n ≤ sz

end Slimcc.Spec
