import Verif.Spec.BitField
import Verif.Spec.CExpr
/-! The value of a bit-field. -/
set_option autoImplicit false
namespace Slimcc.Spec

/-- The value of a bit-field of declared type `t` whose bits are `x` (C23 6.7.3.2p12). -/
def fieldInt (t : CTy) {w : Nat} (x : BitVec w) : Int := if t.isSigned then x.toInt else x.toNat

/-- Every bit of the `n` bytes at `a` that is not of the field of width `w` at bit `bo` is the same. -/
def OtherBits (a : X86.Word) (n bo w : Nat) (m m' : X86.Word → BitVec 8) : Prop :=
  ∀ b j, j < 8 → (b - a).toNat < n → ¬ InField a bo w b j → (m' b).getLsbD j = (m b).getLsbD j

end Slimcc.Spec
