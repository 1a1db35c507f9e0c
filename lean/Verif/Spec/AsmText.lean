import Verif.Spec.AsmRegs
import Verif.Spec.Compiled
import Verif.Model.AsmCode
/-!
Specification for C66: what the text of an `asm` statement finds and what the program finds after it
(GCC manual, 6.48.2). Shared with the model: registers, memory, how an operand's object is found.
-/
set_option autoImplicit false
namespace Slimcc.AsmSpec
open Slimcc.Asm (Reg Arg Clob Ms AMem Opnd Access rBP rBX rSP rR12 rR15)
open Slimcc.X86 (Word rd zx)
open Slimcc.Spec (InBlk Disj)

section
variable (sym : Nat → Word)

/-- The address of an operand's object (or of the local variable with its value) in state `s`. -/
def objAddr (s : Ms) (o : Opnd) : Word :=
  match o.acc with
  | .memop a => a.addr sym s
  | .ptr f b => rd s.m ((AMem.at_ f b).addr sym s) 8
  | .tmp f b => (AMem.at_ f b).addr sym s

/-- The object. -/
def InObj (s : Ms) (o : Opnd) (a : Word) : Prop := InBlk (objAddr sym s o) o.size a

/-- The local variable with the address of the object, if there is one. -/
def InPtr (s : Ms) (o : Opnd) (a : Word) : Prop :=
  match o.acc with
  | .ptr f b => InBlk ((AMem.at_ f b).addr sym s) 8 a
  | _ => False

/-- Frame pointers. -/
def IsFrame (r : Reg) : Prop := r = rBP ∨ r = rBX

/-- The operand's object is found from a frame pointer or a symbol. -/
def BaseOk : Access → Prop
  | .memop (.at_ _ b) => IsFrame b
  | .memop (.sym _) => True
  | .ptr _ b => IsFrame b
  | .tmp _ b => IsFrame b

/-- The operand is moved to or from its object by the compiler. -/
def Moved (q : Placed) (i : Nat) : Prop := q.at_ i = .flag ∨ ∃ r, q.at_ i = .inReg r

/-- An `asm` statement with operands in general registers, memory, numbers and flags that asks for
nothing contradictory: `nOut` outputs come first; only inputs are tied, to outputs in registers that
are not read themselves; registers are not named twice for operands that cannot share one (C48 shows
that the compiler does not object to that). -/
structure Asks66 (q : Placed) (d : Nat → Opnd) (nOut : Nat) : Prop where
  outputs : ∀ i, i < q.count → (i < nOut ↔ IsOutput (q.cons i))
  fewer : nOut ≤ q.count
  general : ∀ i, i < q.count → ∀ r, (q.at_ i).register = some r → Asm.rAX ≤ r ∧ r < rSP
  size : ∀ i, i < q.count → Moved q i →
    (d i).size = 1 ∨ (d i).size = 2 ∨ (d i).size = 4 ∨ (d i).size = 8
  base : ∀ i, i < q.count → BaseOk (d i).acc
  byAddress : ∀ i, i < q.count → ∀ r, q.at_ i = .memoryAt r → ∃ f b, (d i).acc = .ptr f b
  tied : ∀ i j, i < q.count → TiedTo (q.cons i) j →
    ¬ IsOutput (q.cons i) ∧ (q.cons j).head? = some '=' ∧ ∀ r, q.at_ j ≠ .memoryAt r
  named : ∀ i j r, i < q.count → j < q.count → i ≠ j → q.Explicit i → q.Explicit j →
    (q.at_ i).register = some r → (q.at_ j).register = some r →
    MustDiffer (q.cons i) (q.at_ i) (q.cons j) (q.at_ j) → TiedTo (q.cons i) j ∨ TiedTo (q.cons j) i

/-- The slots of the frame the statement may use: `k` bytes below the variables; `lp` is the register
they are found from. -/
def InSlots (lp : Reg) (stk k : Nat) (s : Ms) (a : Word) : Prop := InBlk (s.r lp - BitVec.ofNat 64 (stk + k)) k a

/-- The objects and the compiler's local variables are outside the slots; the results' objects do not
overlap each other nor the variables with addresses. -/
structure Apart66 (q : Placed) (d : Nat → Opnd) (nOut : Nat) (lp : Reg) (stk k : Nat) (s : Ms) : Prop where
  room : stk + k < 2 ^ 63
  objs : ∀ i, i < q.count → ∀ a, InObj sym s (d i) a → ¬ InSlots lp stk k s a
  ptrs : ∀ i, i < q.count → ∀ a, InPtr sym s (d i) a → ¬ InSlots lp stk k s a
  outs : ∀ i j, i < nOut → j < nOut → i ≠ j → Moved q i → Moved q j → ∀ a, InObj sym s (d i) a → ¬ InObj sym s (d j) a
  ptrs' : ∀ i j, i < nOut → j < nOut → Moved q i → ∀ a, InObj sym s (d i) a → ¬ InPtr sym s (d j) a

/-- What the text may rely on: registers of operands that are read hold their values, registers for
addresses the addresses, the memory operands as they are written in the text (`shown`) are the
objects, nothing else in memory has changed. -/
structure Found (q : Placed) (d : Nat → Opnd) (shown : AMem → AMem) (lp : Reg) (stk k : Nat) (s s1 : Ms) : Prop where
  value : ∀ i r, i < q.count → q.at_ i = .inReg r → (q.cons i).head? ≠ some '=' → zx (d i).size (s1.r r) = rd s.m (objAddr sym s (d i)) (d i).size
  address : ∀ i r, i < q.count → q.at_ i = .memoryAt r → s1.r r = objAddr sym s (d i)
  memory : ∀ i a, i < q.count → q.at_ i = .memory → (d i).acc = .memop a → (shown a).addr sym s1 = objAddr sym s (d i)
  mem : ∀ a, ¬ InSlots lp stk k s a → s1.m a = s.m a
  sp : s1.r rSP = s.r rSP

/-- What the text must not do: it keeps the registers that are neither results nor named as clobbered,
the slots, and the compiler's variables with addresses. -/
structure Text (q : Placed) (d : Nat → Opnd) (cl : List Clob) (nOut : Nat) (lp : Reg) (stk k : Nat) (s s1 s2 : Ms) : Prop where
  regs : ∀ r, ¬ Clobbered cl r → (∀ i, i < nOut → q.at_ i ≠ .inReg r) → s2.r r = s1.r r
  slots : ∀ a, InSlots lp stk k s a → s2.m a = s1.m a
  ptrs : ∀ i a, i < nOut → InPtr sym s (d i) a → s2.m a = s1.m a

/-- What the program finds: the results are in their objects, other memory is as the text left it, and
the registers that functions preserve are as before the statement. -/
structure Done (q : Placed) (d : Nat → Opnd) (nOut : Nat) (lp : Reg) (stk k : Nat) (s s2 s3 : Ms) : Prop where
  value : ∀ i r, i < nOut → q.at_ i = .inReg r → rd s3.m (objAddr sym s (d i)) (d i).size = zx (d i).size (s2.r r)
  flag : ∀ i, i < nOut → q.at_ i = .flag → rd s3.m (objAddr sym s (d i)) (d i).size = if s2.flag ((q.cons i).drop 4) then 1 else 0
  mem : ∀ a, ¬ InSlots lp stk k s a → (∀ i, i < nOut → Moved q i → ¬ InObj sym s (d i) a) → s3.m a = s2.m a
  saved : ∀ r, r = rBX ∨ r = rBP ∨ (rR12 ≤ r ∧ r ≤ rR15) → s3.r r = s.r r
  sp : s3.r rSP = s.r rSP

end
end Slimcc.AsmSpec
