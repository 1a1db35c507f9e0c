import Verif.Model.Func
/-!
A compiled program in memory, and what a call of one of its functions does for the caller (System V
ABI for x86-64, 3.2.2, 3.2.3).
-/
set_option autoImplicit false
namespace Slimcc.Spec
open Slimcc.Ty Slimcc.Spec.CTy Slimcc.X86 Slimcc.Gen

section
variable (hs : HostShift) (opt : Bool) (P : Prog) (f : FnDef) (fr : Frame)

/-- The variables of a function that are in its own frame: parameters after the sixth are on the stack
of the caller. -/
def own : List Nat := f.params.take 6 ++ f.locals

/-- The argument `i` of the call `c` has a local variable of its own. -/
def HasTemp (c : CallS) (i : Nat) : Prop :=
  i < 6 ∧ ∃ a, c.args[i]? = some a ∧ spills hs opt (fnLoc P.Γ P.glob f fr) i (argTree hs opt P.Γ a) = true

/-- The blocks of `n` bytes at offset `a` and of `k` bytes at offset `b` do not overlap. -/
def OfsApart (a : Int) (n : Nat) (b : Int) (k : Nat) : Prop := a + n ≤ b ∨ b + k ≤ a

/-- The variables made for the arguments of a call are in the frame and do not overlap. -/
structure TempsOk (c : CallS) : Prop where
  inside : ∀ i, HasTemp hs opt P f fr c i → -(fr.stk : Int) ≤ fr.temp c.site i ∧ fr.temp c.site i + argSize P.Γ c.args i ≤ 0
  vars : ∀ i x, HasTemp hs opt P f fr c i → x ∈ own f → OfsApart (fr.temp c.site i) (argSize P.Γ c.args i) (fr.ofs x) (P.Γ x).bytes
  apart : ∀ i j, HasTemp hs opt P f fr c i → HasTemp hs opt P f fr c j → i ≠ j →
    OfsApart (fr.temp c.site i) (argSize P.Γ c.args i) (fr.temp c.site j) (argSize P.Γ c.args j)

/-- The variables of a function are in its frame and do not overlap. -/
structure FrameOk : Prop where
  inside : ∀ x ∈ own f, -(fr.stk : Int) ≤ fr.ofs x ∧ fr.ofs x + (P.Γ x).bytes ≤ 0
  apart : ∀ x ∈ own f, ∀ y ∈ own f, x ≠ y → OfsApart (fr.ofs x) (P.Γ x).bytes (fr.ofs y) (P.Γ y).bytes
  temps : f.body.CasesOk (TempsOk hs opt P f fr) P.Γ

end

/-- The program is compiled and in memory. The stack is between the addresses `lo` and `hi`, global
variables are elsewhere and do not overlap; `D` is at least the stack one function needs: return
address, old frame pointer, frame, and the arguments of a call it makes. -/
structure Linked (hs : HostShift) (opt : Bool) (P : Prog) (fr : Nat → Frame) (I : Image) (lo hi D : Nat) : Prop where
  image : I.Ok
  rules : ∀ g f, P.fn g = some f → FnRules P opt f
  frames : ∀ g f, P.fn g = some f → FrameOk hs opt P f (fr g)
  code : ∀ g f, P.fn g = some f → ∃ id c, fnCode hs opt P f (fr g) id c = some (I.code g) ∧
    ∀ o, fnBody hs opt P f (fr g) id c = some o →
      16 + frameSize (fr g) o.st ≤ D ∧ f.body.CasesOk (fun c => 16 + frameSize (fr g) o.st + argBytes 0 c.args.length ≤ D) P.Γ
  apart : ∀ x y, P.glob x = true → P.glob y = true → x ≠ y → Disj (I.sym x) (P.Γ x).bytes (I.sym y) (P.Γ y).bytes
  stack : ∀ x a, P.glob x = true → InBlk (I.sym x) (P.Γ x).bytes a → a.toNat < lo ∨ hi ≤ a.toNat
  top : hi ≤ 2 ^ 64

/-- Memory holds the values of the global variables. -/
def GlobalsHold (P : Prog) (I : Image) (σ : Store) (m : Word → BitVec 8) : Prop :=
  ∀ x, P.glob x = true → Bytes m (I.sym x) (P.Γ x).bytes (σ x)

/-- What the function `f` relies on at the instruction that calls it with the values `vs` in the store
`σ`, when it needs at most `need` bytes of stack. -/
structure Calling (P : Prog) (I : Image) (lo hi : Nat) (f : FnDef) (vs : List Int) (σ : Store) (need : Nat) (s : St) : Prop where
  aligned : (s.r .sp).toNat % 16 = 0
  room : lo + need ≤ (s.r .sp).toNat
  inside : (s.r .sp).toNat + argBytes 0 vs.length ≤ hi
  sok : StoreOk P.Γ σ
  globals : GlobalsHold P I σ s.m
  args : ∀ (i x : Nat) (v : Int), f.params[i]? = some x → vs[i]? = some v → InRange (P.Γ x) v ∧ Passed (P.Γ x) v i s

/-- What holds after the call, `s` is the state at the call: the stack and frame pointers are as
before, the global variables have the values of `σ'`, %rax has the result `v`, and all memory above
the arguments, other than global variables, is unchanged. -/
structure Returned (P : Prog) (I : Image) (lo : Nat) (f : FnDef) (nargs : Nat) (v : Option Int) (σ' : Store) (s s' : St) : Prop where
  sp : s'.r .sp = s.r .sp
  bp : s'.r .bp = s.r .bp
  sok : StoreOk P.Γ σ'
  globals : GlobalsHold P I σ' s'.m
  result : ∀ w, v = some w → InRange f.rty w ∧ InReg f.rty w (s'.r .ax)
  mem : ∀ a, (∀ x, P.glob x = true → ¬ InBlk (I.sym x) (P.Γ x).bytes a) → ¬ (lo ≤ a.toNat ∧ a.toNat < (s.r .sp).toNat + argBytes 0 nargs) → s'.m a = s.m a

end Slimcc.Spec
