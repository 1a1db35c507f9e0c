import Verif.Model.X86
/-!
A program of several functions on the machine of Model/X86: `call` and `ret`.

This is the semantics of the target and of the linker, not of anything in /repo: each function's code
is somewhere in memory, `addr g pc` is the address of line `pc` of function `g`, and `back` finds the
line at an address. Code is not data: it is not read or written by instructions.
-/
set_option autoImplicit false
namespace Slimcc.X86

structure Image where
  /-- The code of each function; `[]` if there is none. -/
  code : Nat → List Line
  addr : Nat → Nat → Word
  back : Word → Option (Nat × Nat)
  sym : Nat → Word

/-- Lines of code are found at their addresses. -/
def Image.Ok (I : Image) : Prop := ∀ g pc, pc < (I.code g).length → I.back (I.addr g pc) = some (g, pc)

/-- One step; a state is the function, the position in it, and the machine state. `call` pushes the
address of the next line; `ret` pops an address. A `call` with a stack pointer that is not a multiple
of 16 is stuck: the ABI (3.2.2) lets the called function rely on it. -/
def gstep (I : Image) (c : (Nat × Nat) × St) : Option ((Nat × Nat) × St) :=
  match (I.code c.1.1)[c.1.2]? with
  | some (.call f) => if (c.2.r .sp).toNat % 16 = 0 then some ((f, 0), c.2.push (I.addr c.1.1 (c.1.2 + 1))) else none
  | some .ret => (I.back (rd c.2.m (c.2.r .sp) 8)).map fun p => (p, c.2.setR .sp (c.2.r .sp + 8))
  | _ => (step I.sym (I.code c.1.1) (c.1.2, c.2)).map fun d => ((c.1.1, d.1), d.2)

/-- `n` steps. -/
def gsteps (I : Image) : Nat → (Nat × Nat) × St → Option ((Nat × Nat) × St)
  | 0, c => some c
  | n + 1, c => (gstep I c).bind (gsteps I n)

end Slimcc.X86
