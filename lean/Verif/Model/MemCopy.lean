import Verif.Model.X86
/-!
Model of the instruction sequences that copy and clear blocks of memory (codegen.c:557-600) and that
store the low bytes of a register (codegen.c:4007-4022).

The operand sizes follow the chunk sizes; the assembler adds the displacements `i+ofs`. Simplification:
a base register and an integer displacement stand for every address `ofs(ptr)` (a symbol relative to
%rip is a fixed address too).
-/
set_option autoImplicit false
namespace Slimcc.MemCopy
open Slimcc.X86

/-- The machine of `X86` with %xmm0, a register of 16 bytes. -/
structure VSt where
  s : St
  x : Nat → BitVec 8

/-- `movups` from and to memory and `xorps %xmm0, %xmm0` besides the instructions of `X86`. -/
inductive VIns where
  | gp (i : Ins)
  | ldx (m : MemOp)
  | stx (m : MemOp)
  | zerox
  deriving DecidableEq, Repr

section
variable (sym : Nat → Word)

def vexec (i : VIns) (v : VSt) : Option VSt :=
  match i with
  | .gp i => (exec sym i v.s).map fun s => { v with s := s }
  | .ldx m => some { v with x := fun k => v.s.m (ea sym v.s m + BitVec.ofNat 64 k) }
  | .stx m =>
    some { v with s := { v.s with
      m := fun b => if (b - ea sym v.s m).toNat < 16 then v.x (b - ea sym v.s m).toNat else v.s.m b } }
  | .zerox => some { v with x := fun _ => 0 }

def vexecs : List VIns → VSt → Option VSt
  | [], v => some v
  | i :: l, v => (vexec sym i v).bind (vexecs l)

end

/-- codegen.c:566, 594, 4010: the largest power of two up to 8 that is not larger. -/
def p2 (rem : Nat) : Nat := if rem ≥ 8 then 8 else if rem ≥ 4 then 4 else if rem ≥ 2 then 2 else 1

theorem p2_pos (rem : Nat) : 0 < p2 rem := by unfold p2; repeat' split
                                              all_goals omega

/-- codegen.c:557-571 `gen_mem_copy2`, from the iteration with offset `i` on. -/
def copyFrom (sofs : Int) (sptr : Reg) (dofs : Int) (dptr : Reg) (sz i : Nat) : List VIns :=
  if i < sz then
    if sz - i ≥ 16 then
      .ldx (.off sptr (i + sofs)) :: .stx (.off dptr (i + dofs)) :: copyFrom sofs sptr dofs dptr sz (i + 16)
    else
      .gp (.mov (p2 (sz - i)) (.mem (.off sptr (i + sofs))) (.reg .dx)) ::
      .gp (.mov (p2 (sz - i)) (.reg .dx) (.mem (.off dptr (i + dofs)))) ::
      copyFrom sofs sptr dofs dptr sz (i + p2 (sz - i))
  else []
termination_by sz - i
decreasing_by
  · omega
  · have := p2_pos (sz - i); omega

/-- codegen.c:557-579 `gen_mem_copy2`, `gen_mem_copy`. -/
def memCopy (sofs : Int) (sptr : Reg) (dofs : Int) (dptr : Reg) (sz : Nat) : List VIns := copyFrom sofs sptr dofs dptr sz 0

/-- codegen.c:584-589: the loop with 16-byte stores; the last one overlaps the one before. -/
def zeroBig (dofs : Int) (dptr : Reg) (sz i : Nat) (h : 16 ≤ sz) : List VIns :=
  if i < sz then
    let i' := if sz < i + 16 then sz - 16 else i
    .stx (.off dptr (i' + dofs)) :: zeroBig dofs dptr sz (i' + 16) h
  else []
termination_by sz - i
decreasing_by split <;> omega

/-- codegen.c:593-599. -/
def zeroSmall (dofs : Int) (dptr : Reg) (sz i : Nat) : List VIns :=
  if i < sz then
    .gp (.mov (p2 (sz - i)) (.reg .ax) (.mem (.off dptr (i + dofs)))) :: zeroSmall dofs dptr sz (i + p2 (sz - i))
  else []
termination_by sz - i
decreasing_by have := p2_pos (sz - i); omega

/-- codegen.c:581-600 `gen_mem_zero`. -/
def memZero (dofs : Int) (dptr : Reg) (sz : Nat) : List VIns :=
  if h : sz ≥ 16 then .zerox :: zeroBig dofs dptr sz 0 h
  else .gp (.alu .xor 4 (.reg .ax) (.reg .ax)) :: zeroSmall dofs dptr sz 0

/-- codegen.c:4007-4022 `store_gp2`, from the iteration with offset `i` on. -/
def storeFrom (reg : Reg) (sz : Nat) (dofs : Int) (dptr : Reg) (i : Nat) : List Ins :=
  .mov (p2 (sz - i)) (.reg reg) (.mem (.off dptr (i + dofs))) ::
  (if i + p2 (sz - i) ≥ sz then []
   else .shft .shr 8 (.imm (p2 (sz - i) * 8)) reg :: storeFrom reg sz dofs dptr (i + p2 (sz - i)))
termination_by sz - i
decreasing_by have := p2_pos (sz - i); omega

def storeGp (reg : Reg) (sz : Nat) (dofs : Int) (dptr : Reg) : List Ins := storeFrom reg sz dofs dptr 0

end Slimcc.MemCopy
