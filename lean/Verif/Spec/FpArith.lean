import Verif.Spec.Float
import Mathlib.Order.WithBot
/-!
Arithmetic of floating point data (IEEE 754): sums, products, quotients, comparison. `r` is the result in the format `F`.
-/
set_option autoImplicit false
namespace Slimcc.Spec.FP

/-- The datum with the other sign. -/
def opposite : Fl → Fl
  | .nan => .nan
  | .inf n => .inf (!n)
  | .fin n m e => .fin (!n) m e

def Sum (F : Fmt) (x y r : Fl) : Prop :=
  match x, y with
  | .nan, _ => r = .nan
  | _, .nan => r = .nan
  | .inf a, .inf b => r = if a = b then .inf a else .nan
  | .inf a, .fin .. => r = .inf a
  | .fin .., .inf b => r = .inf b
  | .fin a m e, .fin b k f =>
    ∃ v w, (Fl.fin a m e).val = some v ∧ (Fl.fin b k f).val = some w ∧ Rounded F (v + w) r ∧ (v + w = 0 → r = .fin (a && b) 0 F.emin)

def Product (F : Fmt) (x y r : Fl) : Prop :=
  match x, y with
  | .nan, _ => r = .nan
  | _, .nan => r = .nan
  | .inf a, .inf b => r = .inf (a ^^ b)
  | .inf a, .fin b m _ => r = if m = 0 then .nan else .inf (a ^^ b)
  | .fin a m _, .inf b => r = if m = 0 then .nan else .inf (a ^^ b)
  | .fin a m e, .fin b k f =>
    ∃ v w, (Fl.fin a m e).val = some v ∧ (Fl.fin b k f).val = some w ∧ Rounded F (v * w) r ∧ (v * w = 0 → r = .fin (a ^^ b) 0 F.emin)

def Quotient (F : Fmt) (x y r : Fl) : Prop :=
  match x, y with
  | .nan, _ => r = .nan
  | _, .nan => r = .nan
  | .inf _, .inf _ => r = .nan
  | .inf a, .fin b _ _ => r = .inf (a ^^ b)
  | .fin a _ _, .inf b => r = .fin (a ^^ b) 0 F.emin
  | .fin a m e, .fin b k f =>
    if k = 0 then r = (if m = 0 then .nan else .inf (a ^^ b))
    else ∃ v w, (Fl.fin a m e).val = some v ∧ (Fl.fin b k f).val = some w ∧ Rounded F (v / w) r ∧ (v / w = 0 → r = .fin (a ^^ b) 0 F.emin)

/-- The value of an integer in a floating type. -/
def FromInt (F : Fmt) (z : ℤ) (r : Fl) : Prop := Rounded F z r ∧ (z = 0 → r = .fin false 0 F.emin)

/-- A datum in another format: the nearest, with its sign. -/
def Converted (F : Fmt) (x r : Fl) : Prop :=
  (x = .nan → r = .nan) ∧ (∀ n, x = .inf n → r = .inf n) ∧ (∀ n m e, x = .fin n m e → r = .inf n ∨ ∃ m' e', r = .fin n m' e') ∧
  ∀ v, x.val = some v → Rounded F v r

/-- The datum of a long double in memory: eight bytes of significand, its first bit included, then sign and exponent. -/
def decode80 (sig se : Nat) : Fl :=
  let neg := decide (se / 2 ^ 15 % 2 = 1)
  let ex : ℕ := se % 2 ^ 15
  if ex = 2 ^ 15 - 1 then (if sig = 2 ^ 63 then .inf neg else .nan)
  else if ex = 0 then .fin neg sig f80.emin
  else if sig < 2 ^ 63 then .nan
  else .fin neg sig (f80.emin + (ex : ℤ) - 1)

/-- The place of a datum in the order; "not a number" has none. -/
def Fl.place : Fl → Option (WithBot (WithTop ℚ))
  | .nan => none
  | .inf true => some ⊥
  | .inf false => some ((⊤ : WithTop ℚ) : WithBot (WithTop ℚ))
  | .fin n m e => (Fl.fin n m e).val.map fun v => ((v : WithTop ℚ) : WithBot (WithTop ℚ))

/-- `==`, `!=`, `<`, `<=`, `>`, `>=`: with an operand that is not a number only `!=` holds. -/
inductive FCmp where
  | eq | ne | lt | le | gt | ge
  deriving DecidableEq, Repr

def FCmp.Holds (op : FCmp) (x y : Fl) : Prop :=
  match x.place, y.place with
  | some a, some b =>
    match op with
    | .eq => a = b | .ne => a ≠ b | .lt => a < b | .le => a ≤ b | .gt => b < a | .ge => b ≤ a
  | _, _ => op = .ne

end Slimcc.Spec.FP
