import Verif.Spec.GInit
import Verif.Model.ConstRead
/-!
What a program reads from an initialised object that nothing has written to.
-/
set_option autoImplicit false
namespace Slimcc.GInitSpec
open Slimcc.GInit

/-- The object in memory when the linker has put the symbols at `addr`. -/
def memByte (addr : String → Word) : Out → Byte
  | .byte b => b
  | .part l a k => ((addr l + BitVec.ofInt 64 a) >>> (8 * k)).setWidth 8

/-- Bit `p` of the object. -/
def MemBit (addr : String → Word) (out : List Out) (p : Nat) (b : Bool) : Prop :=
  ∃ x, out[p / 8]? = some x ∧ (memByte addr x).getLsbD (p % 8) = b

/-- `x` is the integer in the `w` bits from bit `lo` on, extended with its sign or with zeros. -/
structure Reads (addr : String → Word) (out : List Out) (lo w : Nat) (signed : Bool) (x : Word) : Prop where
  bits : ∀ j, j < w → MemBit addr out (lo + j) (x.getLsbD j)
  ext : ∀ j, w ≤ j → j < 64 → x.getLsbD j = (signed && x.getLsbD (w - 1))

/-- The first bit and the number of bits of an integer, or bit-field of an integer type, of `sz` bytes at `ofs`. -/
def place (ofs sz : Nat) : Option (Nat × Nat) → Nat × Nat
  | none => (8 * ofs, 8 * sz)
  | some (bofs, w) => (8 * ofs + bofs, w)

end Slimcc.GInitSpec
