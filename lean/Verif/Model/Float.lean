import Verif.Spec.Float
/-!
Floating point as the processor computes it: rounding, sums, decoding and encoding of the 32- and 64-bit
formats. This is the semantics of the target (IEEE 754), not of anything in /repo.
-/
set_option autoImplicit false
namespace Slimcc.FP
open Slimcc.Spec.FP

/-- `n / 2 ^ k`, to the nearest, to even if half-way. -/
def rne (n k : Nat) : Nat :=
  if 2 ^ k < 2 * (n % 2 ^ k) ∨ (2 ^ k = 2 * (n % 2 ^ k) ∧ n / 2 ^ k % 2 = 1) then n / 2 ^ k + 1 else n / 2 ^ k

/-- The number `± m * 2 ^ e` in the format. -/
def round (F : Fmt) (neg : Bool) (m : Nat) (e : Int) : Fl :=
  if m = 0 then .fin neg 0 F.emin
  else
    let k : Int := max ((m.log2 : Int) + 1 - F.p) (F.emin - e)
    let q := if 0 ≤ k then rne m k.toNat else m * 2 ^ (-k).toNat
    let r := if q = 2 ^ F.p then (2 ^ (F.p - 1), e + k + 1) else (q, e + k)
    if F.emax < r.2 then .inf neg else .fin neg r.1 r.2

/-- An integer in the format. -/
def ofInt (F : Fmt) (z : Int) : Fl := round F (decide (z < 0)) z.natAbs 0

/-- Negation. -/
def neg : Fl → Fl
  | .nan => .nan
  | .inf n => .inf (!n)
  | .fin n m e => .fin (!n) m e

/-- The sum. A sum of zero is negative only if both terms are. -/
def add (F : Fmt) : Fl → Fl → Fl
  | .nan, _ => .nan
  | _, .nan => .nan
  | .inf a, .inf b => if a = b then .inf a else .nan
  | .inf a, .fin .. => .inf a
  | .fin .., .inf b => .inf b
  | .fin a m e, .fin b k f =>
    let d := min e f
    let z : Int := (if a then -1 else 1) * (m * 2 ^ (e - d).toNat : Nat) + (if b then -1 else 1) * (k * 2 ^ (f - d).toNat : Nat)
    if z = 0 then .fin (a && b) 0 F.emin else round F (decide (z < 0)) z.natAbs d

def sub (F : Fmt) (x y : Fl) : Fl := add F x (neg y)

/-- The datum in another format. -/
def convert (F : Fmt) : Fl → Fl
  | .nan => .nan
  | .inf n => .inf n
  | .fin n m e => round F n m e

/-- The integer nearest to a datum in the direction given by the rounding control of the x87: to nearest, down,
up, toward zero. -/
def roundInt (rc : BitVec 2) : Fl → Option Int
  | .fin n m e =>
    let k := (-e).toNat
    let a : Nat :=
      if 0 ≤ e then m * 2 ^ e.toNat
      else if rc = 0 then rne m k
      else if (rc = 1 ∧ n = true ∨ rc = 2 ∧ n = false) ∧ m % 2 ^ k ≠ 0 then m / 2 ^ k + 1
      else m / 2 ^ k
    some (if n then -(a : Int) else a)
  | _ => none

/-- The bits of a datum in an interchange format of `w` bits. -/
def encode (F : Fmt) (w : Nat) : Fl → Nat
  | .nan => (F.emax - F.emin + 2).toNat * 2 ^ (F.p - 1) + 2 ^ (F.p - 2)
  | .inf n => (if n then 2 ^ (w - 1) else 0) + (F.emax - F.emin + 2).toNat * 2 ^ (F.p - 1)
  | .fin n m e => (if n then 2 ^ (w - 1) else 0) + ((e - F.emin).toNat * 2 ^ (F.p - 1) + m)

/-- Comparison: `none` if unordered, otherwise whether the first is less and whether they are equal. -/
def compare : Fl → Fl → Option (Bool × Bool)
  | .nan, _ => none
  | _, .nan => none
  | .inf a, .inf b => some (a && !b, a == b)
  | .inf a, .fin .. => some (a, false)
  | .fin .., .inf b => some (!b, false)
  | .fin a m e, .fin b k f =>
    let d := min e f
    let x : Int := (if a then -1 else 1) * (m * 2 ^ (e - d).toNat : Nat)
    let y : Int := (if b then -1 else 1) * (k * 2 ^ (f - d).toNat : Nat)
    some (decide (x < y), decide (x = y))

end Slimcc.FP
