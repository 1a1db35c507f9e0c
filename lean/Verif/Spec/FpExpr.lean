import Verif.Spec.FpArith
import Verif.Spec.FpCode
import Verif.Spec.CExpr
/-!
Expressions of C over operands of arithmetic type with floating arithmetic, after the usual arithmetic conversions:
both operands of an operator have one floating type, every conversion is a cast.
-/
set_option autoImplicit false
namespace Slimcc.Spec.FP
open Slimcc.Spec Slimcc.Spec.CTy Slimcc.X86 Slimcc.FP

inductive VTy where
  | int (t : CTy)
  | flo (f : FTy)
  deriving DecidableEq, Repr

inductive FBin where
  | add | sub | mul | div
  deriving DecidableEq, Repr

inductive FE where
  | var (x : Nat)
  /-- a constant of integer type -/
  | inum (t : CTy) (z : ℤ)
  /-- a constant of floating type -/
  | num (f : FTy) (c : Fl)
  | neg (e : FE)
  | bin (op : FBin) (a b : FE)
  | cmp (op : FCmp) (a b : FE)
  /-- `!` -/
  | not (e : FE)
  | cast (t : VTy) (e : FE)
  deriving DecidableEq, Repr

/-- The type of an expression, given the types of the variables. -/
def FE.ty (Γ : Nat → VTy) : FE → VTy
  | .var x => Γ x
  | .inum t _ => .int t
  | .num f _ => .flo f
  | .neg e => e.ty Γ
  | .bin _ a _ => a.ty Γ
  | .cmp .. => .int .int
  | .not _ => .int .int
  | .cast t _ => t

/-- Expressions `!` is applied to: truth values. -/
def FE.truth : FE → Bool
  | .cmp .. => true
  | .not _ => true
  | .cast (.int .bool) _ => true
  | _ => false

/-- Well-typed expressions. Casts are to and from floating types; `!e` of a floating `e` is `!(bool)e`. -/
def FE.Ok (Γ : Nat → VTy) : FE → Prop
  | .var _ => True
  | .inum t z => t ≠ .bool ∧ InRange t z
  | .num f c => f.fmt.has c
  | .neg e => e.Ok Γ ∧ ∃ f, e.ty Γ = .flo f
  | .bin _ a b => a.Ok Γ ∧ b.Ok Γ ∧ ∃ f, a.ty Γ = .flo f ∧ b.ty Γ = .flo f
  | .cmp _ a b => a.Ok Γ ∧ b.Ok Γ ∧ ∃ f, a.ty Γ = .flo f ∧ b.ty Γ = .flo f
  | .not e => e.Ok Γ ∧ e.truth = true
  | .cast (.flo _) e => e.Ok Γ
  | .cast (.int _) e => e.Ok Γ ∧ ∃ f, e.ty Γ = .flo f

inductive Val where
  | i (z : ℤ)
  | f (x : Fl)
  deriving DecidableEq, Repr

/-- The four operations of IEEE 754. -/
def FBin.Result (op : FBin) (F : Fmt) (x y r : Fl) : Prop :=
  match op with
  | .add => Sum F x y r
  | .sub => Sum F x (opposite y) r
  | .mul => Product F x y r
  | .div => Slimcc.Spec.FP.Quotient F x y r

/-- The value of an expression (C23 6.3.1.4, 6.3.1.5, 6.5, Annex F). There is none if a number is converted to an
integer type that does not have its integral part. -/
inductive Eval (Γ : Nat → VTy) (σ : Nat → Val) : FE → Val → Prop
  | var (x : Nat) : Eval Γ σ (.var x) (σ x)
  | inum (t : CTy) (z : ℤ) : Eval Γ σ (.inum t z) (.i z)
  | num (f : FTy) (c : Fl) : Eval Γ σ (.num f c) (.f c)
  | neg {e : FE} {x : Fl} : Eval Γ σ e (.f x) → Eval Γ σ (.neg e) (.f (opposite x))
  | bin {op : FBin} {a b : FE} {f : FTy} {x y r : Fl} : Eval Γ σ a (.f x) → Eval Γ σ b (.f y) → a.ty Γ = .flo f → op.Result f.fmt x y r →
      Eval Γ σ (.bin op a b) (.f r)
  | cmpT {op : FCmp} {a b : FE} {x y : Fl} : Eval Γ σ a (.f x) → Eval Γ σ b (.f y) → op.Holds x y → Eval Γ σ (.cmp op a b) (.i 1)
  | cmpF {op : FCmp} {a b : FE} {x y : Fl} : Eval Γ σ a (.f x) → Eval Γ σ b (.f y) → ¬ op.Holds x y → Eval Γ σ (.cmp op a b) (.i 0)
  | not {e : FE} {z : ℤ} : Eval Γ σ e (.i z) → Eval Γ σ (.not e) (.i (if z = 0 then 1 else 0))
  | ofInt {f : FTy} {e : FE} {z : ℤ} {r : Fl} : Eval Γ σ e (.i z) → FromInt f.fmt z r → Eval Γ σ (.cast (.flo f) e) (.f r)
  | ofFlo {f : FTy} {e : FE} {x r : Fl} : Eval Γ σ e (.f x) → Converted f.fmt x r → Eval Γ σ (.cast (.flo f) e) (.f r)
  | toInt {t : CTy} {e : FE} {x : Fl} {v : ℚ} : Eval Γ σ e (.f x) → t ≠ .bool → x.val = some v → InRange t (truncated v) →
      Eval Γ σ (.cast (.int t) e) (.i (truncated v))
  | toBool {e : FE} {x : Fl} : Eval Γ σ e (.f x) → Eval Γ σ (.cast (.int .bool) e) (.i (if x.val = some 0 then 0 else 1))

def VTy.size : VTy → Nat
  | .int t => t.bytes
  | .flo .float => 4
  | .flo .double => 8
  | .flo .ldouble => 16

/-- The bytes at `a` represent the value. -/
def At (t : VTy) (v : Val) (a : Word) (m : Word → BitVec 8) : Prop :=
  match t, v with
  | .int t, .i z => InRange t z ∧ ∀ i, i < t.bytes → m (a + BitVec.ofNat 64 i) = (BitVec.ofInt 64 z >>> (8 * i)).setWidth 8
  | .flo .float, .f x => decode f32 32 (rd m a 4).toNat = x
  | .flo .double, .f x => decode f64 64 (rd m a 8).toNat = x
  | .flo .ldouble, .f x => f80.has x ∧ decode80 (rd m a 8).toNat (rd m (a + 8) 2).toNat = x
  | _, _ => False

/-- An activation: types and places of the variables, the part of the frame for variables, the number of slots for
temporaries below it, addresses of symbols, frame and stack pointer. -/
structure FEnv where
  Γ : Nat → VTy
  loc : Nat → MemOp
  stk : Nat
  K : Nat
  sym : Nat → Word
  bp : Word
  sp : Word

def FEnv.addr (E : FEnv) (x : Nat) : Word :=
  match E.loc x with
  | .frame ofs => E.bp + BitVec.ofInt 64 ofs
  | .sym g => E.sym g
  | .ind _ | .off _ _ => 0

def FEnv.slot (E : FEnv) (k : Nat) : Word := E.bp + BitVec.ofInt 64 (-((E.stk + (k + 1) * 8 : Nat) : Int))

/-- Variables, temporaries and the 24 bytes below the stack pointer do not overlap. -/
structure FEnv.Ok (E : FEnv) : Prop where
  direct : ∀ x, (∃ o, E.loc x = .frame o) ∨ (∃ g, E.loc x = .sym g)
  slots : ∀ x k, k < E.K → Disj (E.addr x) (E.Γ x).size (E.slot k) 8
  vars : ∀ x, Disj (E.addr x) (E.Γ x).size (E.sp - 24) 24
  temps : ∀ k, k < E.K → Disj (E.slot k) 8 (E.sp - 24) 24
  room : 8 * E.K ≤ 2 ^ 64

/-- The machine is inside this activation, with the values of the variables in memory and at most `n` data on the x87 stack,
whose control word is as at the start of a process. -/
structure Within (E : FEnv) (σ : Nat → Val) (n : Nat) (s : FS) : Prop where
  bp : s.g.r .bp = E.bp
  sp : s.g.r rsp = E.sp
  cw : s.cw = 0x37f#16
  st : s.st.length ≤ n
  mem : ∀ x, At (E.Γ x) (σ x) (E.addr x) s.g.m

/-- The value of an expression of type `t` is where the code that uses it looks for it. -/
def InPlace (t : VTy) (v : Val) (n : Nat) (s : FS) : Prop :=
  match t, v with
  | .int t, .i z => InReg t z (s.g.r .ax) ∧ s.st.length ≤ n
  | .flo f, .f x => ∃ st, InFp f x st s ∧ st.length ≤ n
  | _, _ => False

/-- What the code does not change: registers of temporaries, `%xmm` registers from `2 + f` on, memory but the first `k`
temporaries and the 24 bytes below the stack pointer. -/
structure Leaves (E : FEnv) (k f : Nat) (s s' : FS) : Prop where
  bp : s'.g.r .bp = s.g.r .bp
  tmp : ∀ i, s'.g.r (.tmp i) = s.g.r (.tmp i)
  cw : s'.cw = s.cw
  xmm : ∀ i, 2 + f ≤ i → s'.xmm i = s.xmm i
  mem : ∀ a, ¬ InBlk (E.sp - 24) 24 a → (∀ i, i < k → ¬ InBlk (E.slot i) 8 a) → s'.g.m a = s.g.m a

end Slimcc.Spec.FP
