import Verif.Model.LocalVars
/-!
Model of the prologue and epilogue of functions, also of those with variables that need more than 16 bytes of
alignment (codegen.c: `emit_text` 4057-4071, 4155-4156, 4165-4170), on a processor with %rsp, %rbp and %rbx.

Simplifications: the other registers are left out; the body is any change of the state.
-/
set_option autoImplicit false
namespace Slimcc.Prologue

/-- The processor: the registers and the memory. `ret` is the address the last `ret` went to. -/
structure Cpu where
  sp : BitVec 64
  bp : BitVec 64
  bx : BitVec 64
  mem : BitVec 64 → BitVec 8
  ret : Option (BitVec 64)

/-- Eight bytes of memory, the low one first. -/
def load8 (m : BitVec 64 → BitVec 8) (a : BitVec 64) : BitVec 64 :=
  (m (a + 7) ++ m (a + 6) ++ m (a + 5) ++ m (a + 4) ++ m (a + 3) ++ m (a + 2) ++ m (a + 1) ++ m a).cast (by decide)

def store8 (m : BitVec 64 → BitVec 8) (a v : BitVec 64) : BitVec 64 → BitVec 8 := fun x =>
  if (x - a).toNat < 8 then v.extractLsb' (8 * (x - a).toNat) 8 else m x

inductive Ins where
  | pushBp | movBpSp | pushBx | andSp (imm : BitVec 64) | movBxSp | subSp (n : BitVec 64)
  | movBxMem (ofs : BitVec 64) | leave | ret
  deriving DecidableEq, Repr

/-- One instruction. -/
def Ins.run (i : Ins) (c : Cpu) : Cpu :=
  match i with
  | .pushBp => { c with sp := c.sp - 8, mem := store8 c.mem (c.sp - 8) c.bp }
  | .movBpSp => { c with bp := c.sp }
  | .pushBx => { c with sp := c.sp - 8, mem := store8 c.mem (c.sp - 8) c.bx }
  | .andSp n => { c with sp := c.sp &&& n }
  | .movBxSp => { c with bx := c.sp }
  | .subSp n => { c with sp := c.sp - n }
  | .movBxMem o => { c with bx := load8 c.mem (c.bp + o) }
  | .leave => { c with sp := c.bp + 8, bp := load8 c.mem c.bp }
  | .ret => { c with sp := c.sp + 8, ret := some (load8 c.mem c.sp) }

def run (is : List Ins) (c : Cpu) : Cpu := is.foldl (fun c i => i.run c) c

/-- codegen.c:4062-4071, 4155-4156: `align` is `lvar_align`, `peak` is `peak_stk_usage`. -/
def prologue (align peak : Nat) : List Ins :=
  [.pushBp, .movBpSp] ++
    (if align > 16 then [.pushBx, .andSp (-(BitVec.ofNat 64 align)), .movBxSp] else []) ++
    (if peak ≠ 0 then [.subSp (BitVec.ofNat 64 ((peak + 15) / 16 * 16))] else [])

/-- codegen.c:4165-4170. -/
def epilogue (align : Nat) : List Ins :=
  (if align > 16 then [.movBxMem (-8)] else []) ++ [.leave, .ret]

/-- codegen.c:4058 `lvar_ptr`: the register from which variables are addressed. -/
def base (align : Nat) (c : Cpu) : BitVec 64 := if align > 16 then c.bx else c.bp

end Slimcc.Prologue
