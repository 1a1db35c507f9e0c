/-!
Specifications from the Unicode standard, in plain arithmetic, independent of the model.
-/
set_option autoImplicit false
namespace Slimcc.Spec

/-- The UTF-8 bit distribution (Unicode Table 3-6), extended to 21 bits. -/
def utf8 (c : Nat) : List Nat :=
  if c < 0x80 then [c]
  else if c < 0x800 then [0xC0 + c / 64, 0x80 + c % 64]
  else if c < 0x10000 then [0xE0 + c / 4096, 0x80 + c / 64 % 64, 0x80 + c % 64]
  else [0xF0 + c / 262144, 0x80 + c / 4096 % 64, 0x80 + c / 64 % 64, 0x80 + c % 64]

/-- UTF-16 code units of a code point (Unicode Table 3-5). -/
def utf16 (c : Nat) : List Nat :=
  if c < 0x10000 then [c]
  else [0xD800 + (c - 0x10000) / 1024, 0xDC00 + (c - 0x10000) % 1024]

/-- Membership in a list of closed intervals. -/
def InIntervals (t : List (Nat × Nat)) (c : Nat) : Prop := ∃ r ∈ t, r.1 ≤ c ∧ c ≤ r.2

/-- A code point allowed in text: a Unicode scalar value. -/
def IsScalar (c : Nat) : Prop := c < 0xD800 ∨ (0xE000 ≤ c ∧ c < 0x110000)

/-- Decoding UTF-16: a high surrogate followed by a low one is a pair, anything else is itself. -/
def fromUtf16 : List Nat → List Nat
  | [] => []
  | [u] => [u]
  | u :: v :: r =>
    if 0xD800 ≤ u ∧ u < 0xDC00 ∧ 0xDC00 ≤ v ∧ v < 0xE000 then
      (0x10000 + (u - 0xD800) * 1024 + (v - 0xDC00)) :: fromUtf16 r
    else u :: fromUtf16 (v :: r)

end Slimcc.Spec
