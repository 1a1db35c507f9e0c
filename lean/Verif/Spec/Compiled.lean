import Verif.Spec.CExpr
import Verif.Model.X86
/-!
What it means for compiled code to work on the variables of a C program: where the variables are,
and when memory represents a store.
-/
set_option autoImplicit false
namespace Slimcc.Spec
open Slimcc.X86

/-- Address `b` is one of the `n` bytes at `a`. -/
def InBlk (a : Word) (n : Nat) (b : Word) : Prop := (b - a).toNat < n

/-- The two blocks have no byte in common. -/
def Disj (a : Word) (n : Nat) (b : Word) (k : Nat) : Prop := ∀ c, ¬ (InBlk a n c ∧ InBlk b k c)

/-- `sizeof`. -/
def CTy.bytes : CTy → Nat
  | .bool | .char | .schar | .uchar => 1
  | .short | .ushort => 2
  | .int | .uint => 4
  | .long | .ulong | .llong | .ullong => 8

/-- A function's activation: the declared types of the variables in scope (`dom`), the operand each
is accessed with, the size of the part of the frame for variables, the number of eight-byte slots
reserved below it for temporaries, the addresses of symbols, and the frame pointer. -/
structure Env where
  Γ : Nat → CTy
  dom : Nat → Prop
  loc : Nat → MemOp
  stk : Nat
  K : Nat
  sym : Nat → Word
  bp : Word

/-- Address of a variable. -/
def Env.addr (E : Env) (x : Nat) : Word :=
  match E.loc x with
  | .frame ofs => E.bp + BitVec.ofInt 64 ofs
  | .sym g => E.sym g
  | .ind _ | .off _ _ => 0

def Env.size (E : Env) (x : Nat) : Nat := (E.Γ x).bytes

/-- Address of a temporary slot. -/
def Env.slot (E : Env) (k : Nat) : Word := E.bp + BitVec.ofInt 64 (-((E.stk + (k + 1) * 8 : Nat) : Int))

/-- Variables and temporaries do not overlap. -/
structure Env.Ok (E : Env) : Prop where
  direct : ∀ x, E.dom x → (∃ o, E.loc x = .frame o) ∨ (∃ g, E.loc x = .sym g)
  vars : ∀ x y, E.dom x → E.dom y → x ≠ y → Disj (E.addr x) (E.size x) (E.addr y) (E.size y)
  slots : ∀ x k, E.dom x → k < E.K → Disj (E.addr x) (E.size x) (E.slot k) 8
  room : 8 * E.K ≤ 2 ^ 64

/-- Memory holds the values of the variables in little-endian two's complement. -/
def Rel (E : Env) (σ : Store) (m : Word → BitVec 8) : Prop :=
  ∀ x, E.dom x → ∀ i, i < E.size x →
    m (E.addr x + BitVec.ofNat 64 i) = (BitVec.ofInt 64 (σ x) >>> (8 * i)).setWidth 8

/-- How the value `v` of type `t` is kept in a register: 64 bits of an eight-byte type and of `bool`,
32 bits of the other types. The remaining bits can be anything. -/
def InReg (t : CTy) (v : Int) (x : Word) : Prop :=
  x.setWidth (if t.bytes = 8 then 64 else 32) = BitVec.ofInt _ v ∧ (t = .bool → x = BitVec.ofInt 64 v)

/-- The bytes at `a` are neither in a variable nor in the first `k` temporary slots. -/
def Env.Outside (E : Env) (k : Nat) (a : Word) : Prop :=
  (∀ x, E.dom x → ¬ InBlk (E.addr x) (E.size x) a) ∧ ∀ i, i < k → ¬ InBlk (E.slot i) 8 a

/-- No label is defined twice. -/
def UniqueLabels (P : List Line) : Prop :=
  ∀ (i j : Nat) (l : Label), P[i]? = some (.lab l) → P[j]? = some (.lab l) → i = j

/-- The lines `code` stand at position `pc` of the program. -/
def CodeAt (P : List Line) (pc : Nat) (code : List Line) : Prop :=
  ∀ i, i < code.length → P[pc + i]? = code[i]?

/-- The program gets from one state to the other in some number of steps. -/
def Runs (sym : Nat → Word) (P : List Line) (c c' : Nat × St) : Prop := ∃ k, steps sym P k c = some c'

end Slimcc.Spec
