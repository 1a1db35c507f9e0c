import Verif.Spec.Lex
import Verif.Model.PPNum
/-!
Integer constants of C23 6.4.4.2 (C12). Bytes: `0`48 `'`39 `x`120 `X`88 `b`98 `B`66 `u`117 `U`85
`l`108 `L`76.
-/
set_option autoImplicit false
namespace Slimcc.Spec
open PPNum (IntTy)

/-- `SepDigits P ds t`: `t` is a non-empty sequence of digits `ds`, with single quotes allowed
between digits. -/
inductive SepDigits (P : Nat → Prop) : List Nat → List Nat → Prop
  | one (d : Nat) : P d → SepDigits P [d] [d]
  | cons (d : Nat) (ds t : List Nat) : P d → SepDigits P ds t → SepDigits P (d :: ds) (d :: t)
  | sep (d : Nat) (ds t : List Nat) : P d → SepDigits P ds t → SepDigits P (d :: ds) (d :: 39 :: t)

/-- The digits `ds` of an integer constant in base 2, 8, 10 or 16, and its text. -/
inductive IntDigits : Nat → List Nat → List Nat → Prop
  | dec (ds t : List Nat) : SepDigits IsDigit ds t → ds.head? ≠ some 48 → IntDigits 10 ds t
  | oct (ds t : List Nat) : SepDigits IsOctal ds t → ds.head? = some 48 → IntDigits 8 ds t
  | hex (x : Nat) (ds t : List Nat) : x = 120 ∨ x = 88 → SepDigits IsHex ds t → IntDigits 16 ds (48 :: x :: t)
  | bin (x : Nat) (ds t : List Nat) : x = 98 ∨ x = 66 → SepDigits (fun d => d = 48 ∨ d = 49) ds t →
      IntDigits 2 ds (48 :: x :: t)

/-- Value of a digit string. -/
def digitsValue (base : Nat) (ds : List Nat) : Nat := ds.foldl (fun v d => v * base + hexDigit d) 0

/-- Suffixes: unsigned, and the number of `l`. -/
inductive IntSuffix : Bool → Nat → List Nat → Prop
  | none : IntSuffix false 0 []
  | u (a : Nat) : a = 117 ∨ a = 85 → IntSuffix true 0 [a]
  | l (b : Nat) : b = 108 ∨ b = 76 → IntSuffix false 1 [b]
  | ll (b : Nat) : b = 108 ∨ b = 76 → IntSuffix false 2 [b, b]
  | ul (a b : Nat) : a = 117 ∨ a = 85 → b = 108 ∨ b = 76 → IntSuffix true 1 [a, b]
  | ull (a b : Nat) : a = 117 ∨ a = 85 → b = 108 ∨ b = 76 → IntSuffix true 2 [a, b, b]
  | lu (a b : Nat) : a = 117 ∨ a = 85 → b = 108 ∨ b = 76 → IntSuffix true 1 [b, a]
  | llu (a b : Nat) : a = 117 ∨ a = 85 → b = 108 ∨ b = 76 → IntSuffix true 2 [b, b, a]

/-- The list of types of C23 6.4.4.2 table. -/
def literalTypes (decimal u : Bool) (l : Nat) : List IntTy :=
  match u, l, decimal with
  | false, 0, true => [.int, .long, .llong]
  | false, 0, false => [.int, .uint, .long, .ulong, .llong, .ullong]
  | true, 0, _ => [.uint, .ulong, .ullong]
  | false, 1, true => [.long, .llong]
  | false, 1, false => [.long, .ulong, .llong, .ullong]
  | true, 1, _ => [.ulong, .ullong]
  | false, _, true => [.llong]
  | false, _, false => [.llong, .ullong]
  | true, _, _ => [.ullong]

/-- Largest value of a type (`int` 32 bits, `long` and `long long` 64 bits). -/
def IntTy.max : IntTy → Nat
  | .int => 2 ^ 31 - 1
  | .uint => 2 ^ 32 - 1
  | .long => 2 ^ 63 - 1
  | .ulong => 2 ^ 64 - 1
  | .llong => 2 ^ 63 - 1
  | .ullong => 2 ^ 64 - 1

/-- The type can represent the value. -/
def IntTy.fits (t : IntTy) (v : Nat) : Bool := decide (v ≤ IntTy.max t)

/-- The first type of the list that can represent the value. -/
def literalType (decimal u : Bool) (l v : Nat) : Option IntTy :=
  (literalTypes decimal u l).find? (fun t => IntTy.fits t v)

end Slimcc.Spec
