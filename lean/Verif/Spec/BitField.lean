import Verif.Spec.Compiled
import Verif.Model.Gen
/-!
What C says about bit-fields: a field of width `w` at bit `bo` of the storage unit at address `a` is
`w` consecutive bits of memory, the least significant first.
-/
set_option autoImplicit false
namespace Slimcc.Spec
open Slimcc.X86

/-- Bit `i` of memory, counted from the least significant bit of the byte at `a`. -/
def memBit (m : Word → BitVec 8) (a : Word) (i : Nat) : Bool :=
  (m (a + BitVec.ofNat 64 (i / 8))).getLsbD (i % 8)

/-- The field at bit `bo` of the unit at `a` contains `x`. -/
def FieldIs (m : Word → BitVec 8) (a : Word) (bo : Nat) {w : Nat} (x : BitVec w) : Prop :=
  ∀ i, i < w → memBit m a (bo + i) = x.getLsbD i

/-- Bit `j` of the byte at address `b` belongs to the field of width `w` at bit `bo` of the unit at
`a`. -/
def InField (a : Word) (bo w : Nat) (b : Word) (j : Nat) : Prop :=
  bo ≤ 8 * (b - a).toNat + j ∧ 8 * (b - a).toNat + j < bo + w

/-- The value of a field with contents `x`, as a word of `n` bits: zero- or sign-extended. -/
def fieldVal (uns : Bool) {w : Nat} (x : BitVec w) (n : Nat) : BitVec n :=
  if uns then x.setWidth n else x.signExtend n

/-- The saved address `a` is in a register or in a slot of the frame. -/
def PtrAt (bp : Word) (stk : Nat) (l : Gen.TLoc) (a : Word) (s : St) : Prop :=
  match l with
  | .reg i => s.r (.tmp i) = a
  | .stk k => rd s.m (bp + BitVec.ofInt 64 (-((stk + (k + 1) * 8 : Nat) : Int))) 8 = a

end Slimcc.Spec
