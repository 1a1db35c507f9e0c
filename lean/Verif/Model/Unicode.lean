import Verif.Model.Basic
import Verif.Model.UnicodeTables
/-!
Model of `/repo/unicode.c`. Bytes are natural numbers below 256 (the value of the `char` as
`unsigned char`); a pointer into a buffer is the list of bytes from it to the end of the buffer,
so that reading the head of `[]` is an out-of-bounds read (`ub`).
-/
set_option autoImplicit false
namespace Slimcc.Unicode
open Slimcc

/-- unicode.c:3 `MASK(bits)`. -/
def MASK (bits : Nat) : Nat := (2 ^ bits - 1) % 256
/-- unicode.c:4 `MASK2(bits, shift)`. -/
def MASK2 (bits shift : Nat) : Nat := (MASK bits <<< shift) % 256

/-- unicode.c:12-36 `encode_utf8`: the bytes written to `buf` (their number is the result).
Each store truncates to `char` (mod 256). `c` is a `uint32_t`. -/
def encodeUtf8 (c : Nat) : List Nat :=
  if c ≤ 0x7F then [c % 256]
  else if c ≤ 0x7FF then
    [(MASK2 2 6 ||| (c >>> 6)) % 256, (MASK2 1 7 ||| (c &&& MASK 6)) % 256]
  else if c ≤ 0xFFFF then
    [(MASK2 3 5 ||| (c >>> 12)) % 256, (MASK2 1 7 ||| ((c >>> 6) &&& MASK 6)) % 256,
     (MASK2 1 7 ||| (c &&& MASK 6)) % 256]
  else
    [(MASK2 4 4 ||| (c >>> 18)) % 256, (MASK2 1 7 ||| ((c >>> 12) &&& MASK 6)) % 256,
     (MASK2 1 7 ||| ((c >>> 6) &&& MASK 6)) % 256, (MASK2 1 7 ||| (c &&& MASK 6)) % 256]

/-- unicode.c:68-72: the continuation-byte loop, `n` bytes left; returns the code point and the
rest of the buffer. -/
def decodeCont : Nat → Nat → List Nat → Outcome (Nat × List Nat)
  | 0, c, p => .ok (c, p)
  | _ + 1, _, [] => .ub
  | n + 1, c, b :: p =>
    if b >>> 6 ≠ MASK2 1 1 then .error
    else decodeCont n (((c <<< 6) % 2 ^ 32) ||| (b &&& MASK 6)) p

/-- unicode.c:45-76 `decode_utf8`: the code point and the new position. -/
def decodeUtf8 : List Nat → Outcome (Nat × List Nat)
  | [] => .ub
  | b :: p =>
    if b < 128 then .ok (b, p)
    else if b ≥ MASK2 4 4 then decodeCont 3 (b &&& MASK 3) p
    else if b ≥ MASK2 3 5 then decodeCont 2 (b &&& MASK 4) p
    else if b ≥ MASK2 2 6 then decodeCont 1 (b &&& MASK 5) p
    else .error

/-- unicode.c:78-87 `in_range`. -/
def inRange (c : Nat) : List (Nat × Nat) → Bool
  | [] => false
  | (first, last) :: rs =>
    if c > last then inRange c rs
    else if first ≤ c then true
    else false

/-- unicode.c:93-266 `is_ident1`. -/
def isIdent1 (c : Nat) : Bool := inRange c ident1Table
/-- unicode.c:272-372 `is_ident2`. -/
def isIdent2 (c : Nat) : Bool := isIdent1 c || inRange c ident2Table

/-- unicode.c:378-431 `char_width`. -/
def charWidth (c : Nat) : Nat :=
  if inRange c width0Table then 0
  else if inRange c width2Table then 2
  else 1

/-- unicode.c:435-448 `display_width`: `n` is the number of bytes of the `len` not yet consumed
(the loop condition `p - start < len`); `fuel` bounds the number of iterations. -/
def displayWidth : Nat → Nat → List Nat → Nat → Outcome Nat
  | 0, _, _, w => .ok w
  | fuel + 1, n, p, w =>
    if n = 0 then .ok w else
    match p with
    | [] => .ub
    | b :: p' =>
      if b = 9 then displayWidth fuel (n - 1) p' (w + 8)
      else match decodeUtf8 (b :: p') with
        | .ok (c, q) => displayWidth fuel (n - (p.length - q.length)) q (w + charWidth c)
        | .error => .error
        | .ub => .ub

end Slimcc.Unicode
