/-
The types of arguments, as far as passing them is concerned.

Simplification: a type is what `calling_convention` and `has_flonum` look at:
its kind, size, alignment and members.  Integer, enumeration, boolean and
pointer types are one kind of scalar, told apart by size.  A bit-field is a
member of its declared type at the offset of its storage unit, as in
`Member.offset`.  Sizes and offsets are natural numbers (no `int` overflow).
-/
set_option autoImplicit false

namespace Slimcc.CC

/-- Scalars: slimcc.h:523-541 without the aggregates. -/
inductive SK where
  | int (size : Nat)
  | float | double | ldouble
  deriving DecidableEq, Repr

def SK.size : SK → Nat
  | .int n => n
  | .float => 4
  | .double => 8
  | .ldouble => 16

mutual
/-- `Type`, slimcc.h:543-587. -/
inductive CTy where
  | scalar (k : SK) (align : Nat)
  | arr (base : CTy) (len : Nat)
  | agg (isUnion : Bool) (size align : Nat) (ms : Mems)
/-- The list of members, slimcc.h:589-601. -/
inductive Mems where
  | nil
  | cons (ofs : Nat) (ty : CTy) (rest : Mems)
end

/-- `Type.size`. -/
def CTy.size : CTy → Nat
  | .scalar k _ => k.size
  | .arr b n => b.size * n
  | .agg _ s _ _ => s

/-- `Type.align`. -/
def CTy.align : CTy → Nat
  | .scalar _ a => a
  | .arr b _ => b.align
  | .agg _ _ a _ => a

/-- Argument registers by number: `%rdi`, `%rsi`, … and `%xmm0`, …. -/
inductive Reg where
  | gp (n : Nat)
  | fp (n : Nat)
  deriving DecidableEq, Repr

/-- Where an argument is at the call: in registers, one for each eight bytes, or on
the stack at an offset from `%rsp`. -/
inductive Loc where
  | regs (rs : List Reg)
  | stack (ofs : Nat)
  deriving DecidableEq, Repr

end Slimcc.CC
