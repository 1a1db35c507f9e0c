import Verif.Model.FpMach
import Verif.Spec.Compiled
/-!
Where compiled code keeps a value of a floating type, and what it must leave alone.
-/
set_option autoImplicit false
namespace Slimcc.Spec.FP
open Slimcc.FP Slimcc.X86 Slimcc.Spec

/-- float and double in %xmm0, long double on top of the x87 stack; `st` is what else is on the stack. -/
def InFp (t : FTy) (x : Fl) (st : List Fl) (s : FS) : Prop :=
  match t with
  | .float => decode f32 32 ((s.xmm 0).toNat % 2 ^ 32) = x ∧ s.st = st
  | .double => decode f64 64 (s.xmm 0).toNat = x ∧ s.st = st
  | .ldouble => f80.has x ∧ s.st = x :: st

/-- The stack pointer, the frame pointer, the registers of temporaries, the control word of the x87 and the memory
are as before; below the stack pointer 24 bytes are used. -/
structure Undisturbed (s s' : FS) : Prop where
  bp : s'.g.r .bp = s.g.r .bp
  tmp : ∀ i, s'.g.r (.tmp i) = s.g.r (.tmp i)
  cw : s'.cw = s.cw
  xmm : ∀ i, 2 ≤ i → s'.xmm i = s.xmm i
  mem : ∀ a, ¬ InBlk (s.g.r rsp - 24) 24 a → s'.g.m a = s.g.m a

end Slimcc.Spec.FP
