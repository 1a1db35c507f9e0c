import Verif.Spec.Compiled
import Verif.Spec.CArgs
/-!
What a call of a function hands over (C23 6.5.3.3; System V ABI for x86-64, 3.2.2, 3.2.3), for
arguments of integer type.
-/
set_option autoImplicit false
namespace Slimcc.Spec
open Slimcc.X86

/-- The arguments, evaluated in the store `σ`, have after conversion the values `vs`, and the store
is then `σ'`: each argument is evaluated as if it were the only one, and has its effects. -/
structure Evaluated (Γ : Nat → CTy) (as : List Actual) (σ σ' : Store) (vs : List Int) : Prop where
  len : vs.length = as.length
  each : ∀ (i : Nat) (a : Actual) (v : Int), as[i]? = some a → vs[i]? = some v →
    ∃ w σ1, ceval Γ a.e σ = .ok (w, σ1) ∧ v = CTy.conv (a.ty Γ) w ∧ ∀ x ∈ a.e.assigned, σ' x = σ1 x
  rest : ∀ x, (∀ a ∈ as, x ∉ a.e.assigned) → σ' x = σ x

/-- The registers for integer arguments: %rdi, %rsi, %rdx, %rcx, %r8, %r9. -/
def argRegister : Nat → Option Reg
  | 0 => some (.tmp 0)
  | 1 => some (.tmp 1)
  | 2 => some .dx
  | 3 => some .cx
  | 4 => some (.tmp 2)
  | 5 => some (.tmp 3)
  | _ => none

/-- The `n` bytes at `a` hold `v` in little-endian two's complement. -/
def Bytes (m : Word → BitVec 8) (a : Word) (n : Nat) (v : Int) : Prop :=
  ∀ i, i < n → m (a + BitVec.ofNat 64 i) = (BitVec.ofInt 64 v >>> (8 * i)).setWidth 8

/-- At the call instruction the argument with number `k` is in its place: in the register, or in
its eight bytes of the stack, from the stack pointer upwards. -/
def Passed (t : CTy) (v : Int) (k : Nat) (s : St) : Prop :=
  match argRegister k with
  | some r => InReg t v (s.r r)
  | none => Bytes s.m (s.r .sp + BitVec.ofNat 64 (8 * (k - 6))) t.bytes v

/-- Bytes of stack for the arguments, `h` is 1 if the address of the result is passed as the first:
eight for each argument after the sixth, and a multiple of sixteen. -/
def argBytes (h n : Nat) : Nat := 16 * ((h + n - 6 + 1) / 2)

/-- The size of an argument. -/
def argSize (Γ : Nat → CTy) (as : List Actual) (i : Nat) : Nat :=
  match as[i]? with
  | some a => (a.ty Γ).bytes
  | none => 0

/-- The memory a call uses: the arguments on the stack at `sp`, and for the arguments in `L` a local
variable at offset `temp i` of the frame. They overlap neither each other nor the variables and
slots of the function. -/
structure Room (E : Env) (as : List Actual) (h : Nat) (L : Nat → Prop) (temp : Nat → Int) (sp : Word) : Prop where
  size : argBytes h as.length ≤ 2 ^ 64
  stackVars : ∀ x, E.dom x → Disj sp (argBytes h as.length) (E.addr x) (E.size x)
  stackSlots : ∀ k, k < E.K → Disj sp (argBytes h as.length) (E.slot k) 8
  tempVars : ∀ i x, L i → E.dom x → Disj (E.bp + BitVec.ofInt 64 (temp i)) (argSize E.Γ as i) (E.addr x) (E.size x)
  tempSlots : ∀ i k, L i → k < E.K → Disj (E.bp + BitVec.ofInt 64 (temp i)) (argSize E.Γ as i) (E.slot k) 8
  tempStack : ∀ i, L i → Disj (E.bp + BitVec.ofInt 64 (temp i)) (argSize E.Γ as i) sp (argBytes h as.length)
  temps : ∀ i j, L i → L j → i ≠ j →
    Disj (E.bp + BitVec.ofInt 64 (temp i)) (argSize E.Γ as i) (E.bp + BitVec.ofInt 64 (temp j)) (argSize E.Γ as j)

/-- The byte at `b` is one of those. -/
def CallMem (E : Env) (as : List Actual) (h : Nat) (L : Nat → Prop) (temp : Nat → Int) (sp b : Word) : Prop :=
  InBlk sp (argBytes h as.length) b ∨ ∃ i, L i ∧ InBlk (E.bp + BitVec.ofInt 64 (temp i)) (argSize E.Γ as i) b

/-- What the called function relies on at the call instruction: the stack pointer is `sp`, the
variables have the values of the store `σ`, the arguments are in their places, %rdi has the address
of the buffer for a result in memory, and %al says that no vector register holds an argument of a
function with `...`. -/
structure Handed (E : Env) (as : List Actual) (ret : Option Int) (variadic : Bool) (σ : Store) (vs : List Int) (sp : Word) (s : St) : Prop where
  bp : s.r .bp = E.bp
  sp : s.r .sp = sp
  rel : Rel E σ s.m
  args : ∀ (i : Nat) (a : Actual) (v : Int), as[i]? = some a → vs[i]? = some v → Passed (a.ty E.Γ) v ((if ret.isSome then 1 else 0) + i) s
  result : ∀ o, ret = some o → s.r (.tmp 0) = E.bp + BitVec.ofInt 64 o
  vector : variadic = true → (s.r .ax).setWidth 8 = 0#8

end Slimcc.Spec
