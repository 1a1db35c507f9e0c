import Verif.Model.Arena
/-! Specification for C02. -/
set_option autoImplicit false
namespace Slimcc.Spec
open Slimcc.Arena

/-- Byte `x` of page `p` belongs to the block. -/
def InBlock (b : Block) (p x : Nat) : Prop := b.page = p ∧ b.off ≤ x ∧ x < b.off + b.size

/-- The blocks share no byte. -/
def NoOverlap (a b : Block) : Prop := ∀ p x, ¬ (InBlock a p x ∧ InBlock b p x)

/-- Inside its 4064-byte page, 16-byte aligned. -/
def WellPlaced (b : Block) : Prop := b.off + b.size ≤ 4064 ∧ b.off % 16 = 0

/-- A legal use: allocation only between `on` and `off`, and at most a page each.
The argument tells whether the arena is currently on. -/
def LegalUse : Bool → List Op → Prop
  | _, [] => True
  | _, .on :: os => LegalUse true os
  | _, .off _ :: os => LegalUse false os
  | isOn, .alloc sz :: os => isOn = true ∧ sz ≤ 4064 ∧ LegalUse isOn os

/-- The sizes requested since the last `on`, most recent first. -/
def requestsSinceOn : List Op → List Nat → List Nat
  | [], acc => acc
  | .on :: os, _ => requestsSinceOn os []
  | .off _ :: os, acc => requestsSinceOn os acc
  | .alloc sz :: os, acc => requestsSinceOn os (sz :: acc)

end Slimcc.Spec
