import Mathlib.Data.Rat.Floor
/-!
Binary floating point, as in IEEE 754 and the manuals of the processor, and the conversions of C23 6.3.1.4
and 6.3.1.5.
-/
set_option autoImplicit false
namespace Slimcc.Spec.FP

/-- A format: bits of the significand, least and greatest exponent of its last bit. -/
structure Fmt where
  p : Nat
  emin : Int
  emax : Int
  deriving DecidableEq, Repr

/-- float, double and the 80-bit long double of the x87. -/
def f32 : Fmt := ⟨24, -149, 104⟩
def f64 : Fmt := ⟨53, -1074, 971⟩
def f80 : Fmt := ⟨64, -16445, 16320⟩

/-- Floating point data: a number `± m * 2 ^ e`, an infinity, not a number. -/
inductive Fl where
  | nan
  | inf (neg : Bool)
  | fin (neg : Bool) (m : Nat) (e : Int)
  deriving DecidableEq, Repr

/-- The data of a format. The significand has its full length unless the exponent is the least. -/
def Fmt.has (F : Fmt) : Fl → Prop
  | .nan => True
  | .inf _ => True
  | .fin _ m e => m < 2 ^ F.p ∧ F.emin ≤ e ∧ e ≤ F.emax ∧ (2 ^ (F.p - 1) ≤ m ∨ e = F.emin)

/-- The number a datum stands for. -/
def Fl.val : Fl → Option ℚ
  | .fin n m e => some ((if n then -1 else 1) * m * 2 ^ e)
  | _ => none

/-- The datum of the format nearest to a number: the one with even significand if there are two; an
infinity from half a unit beyond the greatest on. -/
inductive Rounded (F : Fmt) (x : ℚ) : Fl → Prop
  | over (r : Fl) (h : (2 ^ (F.p + 1) - 1) * (2 : ℚ) ^ (F.emax - 1) ≤ |x|) (e : r = .inf (decide (x < 0))) : Rounded F x r
  | near (n : Bool) (m : Nat) (e : Int) (v : ℚ)
    (hv : (Fl.fin n m e).val = some v)
    (has : F.has (.fin n m e))
    (lt : |x| < (2 ^ (F.p + 1) - 1) * (2 : ℚ) ^ (F.emax - 1))
    (near : ∀ y w, F.has y → y.val = some w → |x - v| ≤ |x - w|)
    (even : ∀ y w, F.has y → y.val = some w → w ≠ v → |x - v| = |x - w| → m % 2 = 0)
    (sign : (x < 0 → n = true) ∧ (0 < x → n = false)) : Rounded F x (.fin n m e)

/-- The datum with the given bits in an interchange format of `w` bits: sign, exponent, significand without its
first bit. -/
def decode (F : Fmt) (w : Nat) (b : Nat) : Fl :=
  let neg := decide (b / 2 ^ (w - 1) % 2 = 1)
  let ex := b % 2 ^ (w - 1) / 2 ^ (F.p - 1)
  let fr := b % 2 ^ (F.p - 1)
  if ex = 0 then .fin neg fr F.emin
  else if (ex : Int) = F.emax - F.emin + 2 then (if fr = 0 then .inf neg else .nan)
  else .fin neg (2 ^ (F.p - 1) + fr) (F.emin + ex - 1)

/-- The real floating types. -/
inductive FTy where
  | float | double | ldouble
  deriving DecidableEq, Repr

def FTy.fmt : FTy → Fmt
  | .float => f32 | .double => f64 | .ldouble => f80

/-- 6.3.1.4: the fractional part is discarded. -/
def truncated (x : ℚ) : ℤ := if 0 ≤ x then ⌊x⌋ else ⌈x⌉

end Slimcc.Spec.FP
