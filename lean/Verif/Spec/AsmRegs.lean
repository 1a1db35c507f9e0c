/-
Specification for C48: what the user of an `asm` statement asks for with
constraints and clobbers, and what it means for an assignment of registers to
honour it.  Only the vocabulary of the input (register numbers, `Arg`, `Clob`)
is shared with the model.
-/
import Verif.Model.AsmRegs
set_option autoImplicit false

namespace Slimcc.AsmSpec
open Slimcc.Asm (Reg Arg Clob)

/-- Where an operand is for the duration of the assembly text. -/
inductive Where where
  /-- undecided -/
  | nowhere
  /-- a number or a symbol in the text -/
  | number | symbol
  /-- a condition flag -/
  | flag
  /-- memory addressed without a register of its own -/
  | memory
  /-- in a register -/
  | inReg (r : Reg)
  /-- in memory, its address in a register -/
  | memoryAt (r : Reg)
  deriving DecidableEq, Repr

/-- The register an operand occupies, if any. -/
def Where.register : Where → Option Reg
  | .inReg r | .memoryAt r => some r
  | _ => none

/-- `=` and `+` introduce outputs, `+` one that is also read. -/
def IsOutput (c : List Char) : Prop := c.head? = some '=' ∨ c.head? = some '+'

/-- The operand's register holds something when the text starts, or may be
written before the inputs have been read: inputs, `+` outputs, early-clobber
(`&`) outputs and addresses. -/
def Before (c : List Char) : Where → Prop
  | .inReg _ => ¬ IsOutput c ∨ c.head? = some '+' ∨ '&' ∈ c
  | .memoryAt _ => True
  | _ => False

/-- The operand's register holds a result when the text ends. -/
def After (c : List Char) : Where → Prop
  | .inReg _ => IsOutput c
  | _ => False

/-- Two operands that cannot be in one register. -/
def MustDiffer (c₁ : List Char) (w₁ : Where) (c₂ : List Char) (w₂ : Where) : Prop :=
  (Before c₁ w₁ ∧ Before c₂ w₂) ∨ (After c₁ w₁ ∧ After c₂ w₂)

/-- The constraint letters for one register each. -/
def letterReg : Char → Option Reg
  | 'a' => some Asm.rAX
  | 'b' => some Asm.rBX
  | 'c' => some Asm.rCX
  | 'd' => some Asm.rDX
  | 'S' => some Asm.rSI
  | 'D' => some Asm.rDI
  | 't' => some Asm.rST0
  | 'u' => some Asm.rST1
  | _ => none

/-- The user asks for this very register, by a letter or with a register
variable. -/
def Asks (c : List Char) (a : Arg) (r : Reg) : Prop :=
  (∃ x ∈ c, letterReg x = some r) ∨ a.varReg = some r

/-- A constraint letter admits this register. -/
def Allowed (c : List Char) (r : Reg) : Prop :=
  (('r' ∈ c ∨ 'q' ∈ c ∨ 'g' ∈ c ∨ 'X' ∈ c) ∧ Asm.rAX ≤ r ∧ r ≤ Asm.rR15) ∨
  ('Q' ∈ c ∧ r ∈ [Asm.rAX, Asm.rBX, Asm.rCX, Asm.rDX]) ∨
  ('R' ∈ c ∧ r ∈ [Asm.rAX, Asm.rBX, Asm.rCX, Asm.rDX, Asm.rSI, Asm.rDI, Asm.rBP]) ∨
  ('U' ∈ c ∧ Asm.rAX ≤ r ∧ r ≤ Asm.rR11) ∨
  (('x' ∈ c ∨ 'v' ∈ c ∨ 'X' ∈ c) ∧ Asm.rXMM0 ≤ r ∧ r ≤ Asm.rXMM15) ∨
  ('f' ∈ c ∧ Asm.rST0 ≤ r ∧ r ≤ Asm.rST7)

/-- A constraint letter admits memory. -/
def AllowsMemory (c : List Char) : Prop := 'm' ∈ c ∨ 'o' ∈ c ∨ 'g' ∈ c ∨ 'X' ∈ c

/-- The letters for numbers. -/
def AllowsNumber (c : List Char) : Prop :=
  ∃ x ∈ c, x ∈ ['n', 'I', 'J', 'K', 'L', 'M', 'N', 'O', 'P', 'i', 'g', 'X']

/-- The value of decimal digits. -/
def decimal (ds : List Char) : Nat :=
  ds.foldl (fun n d => 10 * n + (d.toNat - '0'.toNat)) 0

/-- The last number written in the constraint is `k`: the operand is tied to
operand `k`. -/
def TiedTo (c : List Char) (k : Nat) : Prop :=
  ∃ pre ds post : List Char, c = pre ++ ds ++ post ∧ ds ≠ [] ∧
    (∀ d ∈ ds, d.isDigit) ∧ (∀ d ∈ post, ¬ d.isDigit) ∧
    (∀ d, pre.getLast? = some d → ¬ d.isDigit) ∧ decimal ds = k

/-- The general and vector registers named as clobbered (the stack pointer
excepted). -/
def Clobbered (cl : List Clob) (r : Reg) : Prop :=
  (Clob.gp r ∈ cl ∧ r ≠ Asm.rSP ∧ r < Asm.rST0) ∨ ∃ n, Clob.vec n ∈ cl ∧ n < 16 ∧ r = Asm.rXMM0 + n

/-- An `asm` statement's operands, outputs first, with the place of each. -/
structure Placed where
  count : Nat
  cons : Nat → List Char
  arg : Nat → Arg
  at_ : Nat → Where

/-- The user put this operand into a particular register: it asks for one, or
is tied to an operand that does. -/
def Placed.Explicit (p : Placed) (i : Nat) : Prop :=
  (∃ r, Asks (p.cons i) (p.arg i) r) ∨
  ∃ k r, TiedTo (p.cons i) k ∧ Asks (p.cons k) (p.arg k) r

/-- The place of operand `i` is one its constraint admits. -/
def Placed.Fits (p : Placed) (i : Nat) : Prop :=
  match p.at_ i with
  | .nowhere => False
  | .number => (p.arg i).constInt = true ∧ AllowsNumber (p.cons i)
  | .symbol => 'i' ∈ p.cons i
  | .flag => ['=', '@', 'c', 'c'] <+: p.cons i
  | .memory => (p.arg i).memop = true ∧ AllowsMemory (p.cons i)
  | .memoryAt r => AllowsMemory (p.cons i) ∧ Asm.rAX ≤ r ∧ r ≤ Asm.rR15
  | .inReg r => Asks (p.cons i) (p.arg i) r ∨ Allowed (p.cons i) r ∨
      ∃ k, TiedTo (p.cons i) k ∧ IsOutput (p.cons k) ∧ (p.at_ k).register = some r

end Slimcc.AsmSpec
