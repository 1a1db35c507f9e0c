import Verif.Model.Float
/-!
Products and quotients as the processor computes them. This is the semantics of the target (IEEE 754), not of
anything in /repo.
-/
set_option autoImplicit false
namespace Slimcc.FP
open Slimcc.Spec.FP

def mul (F : Fmt) : Fl → Fl → Fl
  | .nan, _ => .nan
  | _, .nan => .nan
  | .inf a, .inf b => .inf (a ^^ b)
  | .inf a, .fin b m _ => if m = 0 then .nan else .inf (a ^^ b)
  | .fin a m _, .inf b => if m = 0 then .nan else .inf (a ^^ b)
  | .fin a m e, .fin b k f => round F (a ^^ b) (m * k) (e + f)

/-- The quotient of significands is taken to two bits more than the format has; a further bit tells whether anything is left. -/
def quot (F : Fmt) (m k : Nat) : Nat × Nat :=
  let s := F.p + 2 + k.log2
  (2 * (m * 2 ^ s / k) + (if m * 2 ^ s % k = 0 then 0 else 1), s + 1)

def div (F : Fmt) : Fl → Fl → Fl
  | .nan, _ => .nan
  | _, .nan => .nan
  | .inf _, .inf _ => .nan
  | .inf a, .fin b _ _ => .inf (a ^^ b)
  | .fin a _ _, .inf b => .fin (a ^^ b) 0 F.emin
  | .fin a m e, .fin b k f =>
    if k = 0 then (if m = 0 then .nan else .inf (a ^^ b))
    else round F (a ^^ b) (quot F m k).1 (e - f - (quot F m k).2)

end Slimcc.FP
