/-!
The integer types of C for the LP64 model, their values, and the conversions of C23 6.3.1, written
from the standard.
-/
set_option autoImplicit false
namespace Slimcc.Spec

/-- The standard integer types. `char` is the plain one (signed on this target). -/
inductive CTy where
  | bool | char | schar | uchar | short | ushort | int | uint | long | ulong | llong | ullong
  deriving DecidableEq, Repr

namespace CTy

/-- Width in bits (C23 6.2.6.2); `bool` has width 1. -/
def width : CTy → Nat
  | bool => 1
  | char | schar | uchar => 8
  | short | ushort => 16
  | int | uint => 32
  | long | ulong | llong | ullong => 64

def isSigned : CTy → Bool
  | char | schar | short | int | long | llong => true
  | _ => false

/-- Least and greatest value. -/
def minVal (t : CTy) : Int := if t.isSigned then -(2 ^ (t.width - 1)) else 0
def maxVal (t : CTy) : Int := if t.isSigned then 2 ^ (t.width - 1) - 1 else 2 ^ t.width - 1

/-- The value is one of the type's. -/
def InRange (t : CTy) (v : Int) : Prop := t.minVal ≤ v ∧ v ≤ t.maxVal

/-- 6.3.1.1: conversion rank. -/
def rank : CTy → Nat
  | bool => 0
  | char | schar | uchar => 1
  | short | ushort => 2
  | int | uint => 3
  | long | ulong => 4
  | llong | ullong => 5

/-- The unsigned type corresponding to a type. -/
def toUnsigned : CTy → CTy
  | bool => bool
  | char | schar | uchar => uchar
  | short | ushort => ushort
  | int | uint => uint
  | long | ulong => ulong
  | llong | ullong => ullong

/-- 6.3.1.2, 6.3.1.3: conversion of an integer value to a type. To `bool`: 0 or 1. Otherwise the
value modulo 2^width in the range of the type (for signed types this is the
implementation-defined choice). -/
def conv (t : CTy) (v : Int) : Int :=
  if t = bool then (if v = 0 then 0 else 1)
  else if t.isSigned then (v + 2 ^ (t.width - 1)) % 2 ^ t.width - 2 ^ (t.width - 1)
  else v % 2 ^ t.width

/-- `int` can represent all values between `lo` and `hi`. -/
def intFits (lo hi : Int) : Bool := decide (int.minVal ≤ lo) && decide (hi ≤ int.maxVal)

/-- 6.3.1.1p2: integer promotion of an object of type `t`: types of rank at most `int` become
`int` if that represents all values, else `unsigned int`; others are unchanged. -/
def promote (t : CTy) : CTy :=
  if t.rank ≤ int.rank then (if intFits t.minVal t.maxVal then int else uint) else t

/-- The values of a bit-field of declared type `t` and width `w`. -/
def bitMin (t : CTy) (w : Nat) : Int := if t.isSigned then -(2 ^ (w - 1)) else 0
def bitMax (t : CTy) (w : Nat) : Int := if t.isSigned then 2 ^ (w - 1) - 1 else 2 ^ w - 1

/-- 6.3.1.1p2 for a bit-field: `int` if that represents all its values, `unsigned int` if that
does, otherwise (a bit-field wider than `int`, implementation-defined) its declared type. -/
def promoteBits (t : CTy) (w : Nat) : CTy :=
  if intFits (bitMin t w) (bitMax t w) then int
  else if decide (0 ≤ bitMin t w) && decide (bitMax t w ≤ uint.maxVal) then uint
  else t

/-- 6.3.1.8: the usual arithmetic conversions on promoted integer types. -/
def common (t1 t2 : CTy) : CTy :=
  if t1 = t2 then t1
  else if t1.isSigned = t2.isSigned then (if t1.rank < t2.rank then t2 else t1)
  else
    let u := if t1.isSigned then t2 else t1
    let s := if t1.isSigned then t1 else t2
    if s.rank ≤ u.rank then u
    else if u.maxVal ≤ s.maxVal then s
    else s.toUnsigned

end CTy

/-- Arithmetic types, and 6.3.1.8 with the floating types. -/
inductive CATy where
  | i (t : CTy)
  | float | double | ldouble
  deriving DecidableEq, Repr

def CATy.common : CATy → CATy → CATy
  | .ldouble, _ | _, .ldouble => .ldouble
  | .double, _ | _, .double => .double
  | .float, _ | _, .float => .float
  | .i a, .i b => .i (CTy.common a b)

/-- An operand after the integer promotions; `bw` is the width of a bit-field. -/
def CATy.promote : CATy → Option Nat → CATy
  | .i t, none => .i t.promote
  | .i t, some w => .i (t.promoteBits w)
  | t, _ => t

end Slimcc.Spec
