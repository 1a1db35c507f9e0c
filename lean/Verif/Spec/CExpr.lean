import Verif.Spec.CInt
/-!
Integer expressions of C and their meaning in the abstract machine (C23 6.5), over the integer
types. Objects are variables with a declared type; the store maps a variable to its value.

Signed overflow of `+`, `-`, `*`, unary `-` and `<<` wraps (what slimcc, like `-fwrapv`,
implements). Division by zero is a separate outcome; `INT_MIN / -1`, `INT_MIN % -1` and shift
counts outside the width are undefined. Operands are evaluated from left to right; C leaves the
order open, so a program that depends on it has no defined value anyway.
-/
set_option autoImplicit false
namespace Slimcc.Spec

inductive ArOp where
  | add | sub | mul | div | mod | band | bor | bxor
  deriving DecidableEq, Repr

inductive ShOp where
  | shl | shr
  deriving DecidableEq, Repr

inductive CmpOp where
  | eq | ne | lt | le | gt | ge
  deriving DecidableEq, Repr

/-- The operators that have a compound assignment. -/
inductive BinOp where
  | ar (op : ArOp)
  | sh (op : ShOp)
  deriving DecidableEq, Repr

inductive UnOp where
  | pos | neg | bnot
  deriving DecidableEq, Repr

/-- Source expressions. -/
inductive Expr where
  | num (t : CTy) (v : Int)
  | var (x : Nat)
  | cast (t : CTy) (e : Expr)
  | un (op : UnOp) (e : Expr)
  | lnot (e : Expr)
  | bin (op : BinOp) (a b : Expr)
  | cmp (op : CmpOp) (a b : Expr)
  | land (a b : Expr)
  | lor (a b : Expr)
  | cond (c a b : Expr)
  | comma (a b : Expr)
  | assign (x : Nat) (e : Expr)
  | opAssign (op : BinOp) (x : Nat) (e : Expr)
  /-- `++x`, `--x` (`pre`), `x++`, `x--`; `up` for increment. -/
  | incr (pre up : Bool) (x : Nat)
  deriving Repr

/-- Result of evaluating something. -/
inductive Res (α : Type) where
  | ok (a : α)
  | divZero
  | undef
  deriving DecidableEq, Repr

def Res.bind {α β : Type} : Res α → (α → Res β) → Res β
  | .ok a, f => f a
  | .divZero, _ => .divZero
  | .undef, _ => .undef

instance : Monad Res where
  pure := .ok
  bind := Res.bind

abbrev Store := Nat → Int

def Store.set (σ : Store) (x : Nat) (v : Int) : Store := fun y => if y = x then v else σ y

/-- The type of the result of a binary operator on operands of the given types. -/
def BinOp.ty (op : BinOp) (ta tb : CTy) : CTy :=
  match op with
  | .ar _ => CTy.common ta.promote tb.promote
  | .sh _ => ta.promote

/-- Types of expressions; `Γ` gives the declared types of the variables. -/
def Expr.ty (Γ : Nat → CTy) : Expr → CTy
  | .num t _ => t
  | .var x => Γ x
  | .cast t _ => t
  | .un _ e => (e.ty Γ).promote
  | .lnot _ => .int
  | .bin op a b => op.ty (a.ty Γ) (b.ty Γ)
  | .cmp _ _ _ => .int
  | .land _ _ => .int
  | .lor _ _ => .int
  | .cond _ a b => CTy.common (a.ty Γ).promote (b.ty Γ).promote
  | .comma _ b => b.ty Γ
  | .assign x _ => Γ x
  | .opAssign _ x _ => Γ x
  | .incr _ _ x => Γ x

/-- A bitwise operator on two's complement representations. -/
def bitwise (t : CTy) (f : BitVec 64 → BitVec 64 → BitVec 64) (a b : Int) : Int :=
  CTy.conv t (f (BitVec.ofInt 64 a) (BitVec.ofInt 64 b)).toInt

/-- An arithmetic operator on values already converted to the common type `t`. -/
def arith (t : CTy) : ArOp → Int → Int → Res Int
  | .add, a, b => .ok (CTy.conv t (a + b))
  | .sub, a, b => .ok (CTy.conv t (a - b))
  | .mul, a, b => .ok (CTy.conv t (a * b))
  | .div, a, b =>
    if b = 0 then .divZero
    else if t.minVal ≤ a.tdiv b ∧ a.tdiv b ≤ t.maxVal then .ok (a.tdiv b) else .undef
  | .mod, a, b =>
    if b = 0 then .divZero
    else if t.minVal ≤ a.tdiv b ∧ a.tdiv b ≤ t.maxVal then .ok (a.tmod b) else .undef
  | .band, a, b => .ok (bitwise t (· &&& ·) a b)
  | .bor, a, b => .ok (bitwise t (· ||| ·) a b)
  | .bxor, a, b => .ok (bitwise t (· ^^^ ·) a b)

/-- Shifts of a value of the promoted type `t`. `>>` of a negative value is arithmetic. -/
def shift (t : CTy) : ShOp → Int → Int → Res Int
  | .shl, a, c => if 0 ≤ c ∧ c < t.width then .ok (CTy.conv t (a * 2 ^ c.toNat)) else .undef
  | .shr, a, c => if 0 ≤ c ∧ c < t.width then .ok (a / 2 ^ c.toNat) else .undef

/-- A binary operator on operands of types `ta`, `tb`. -/
def binop (op : BinOp) (ta tb : CTy) (a b : Int) : Res Int :=
  match op with
  | .ar o => let t := CTy.common ta.promote tb.promote; arith t o (CTy.conv t a) (CTy.conv t b)
  | .sh o => shift ta.promote o a b

def unop (t : CTy) : UnOp → Int → Int
  | .pos, a => a
  | .neg, a => CTy.conv t (-a)
  | .bnot, a => CTy.conv t (-a - 1)

def truth (p : Prop) [Decidable p] : Int := if p then 1 else 0

def cmpVal : CmpOp → Int → Int → Int
  | .eq, a, b => truth (a = b)
  | .ne, a, b => truth (a ≠ b)
  | .lt, a, b => truth (a < b)
  | .le, a, b => truth (a ≤ b)
  | .gt, a, b => truth (a > b)
  | .ge, a, b => truth (a ≥ b)

/-- The abstract machine. -/
def ceval (Γ : Nat → CTy) : Expr → Store → Res (Int × Store)
  | .num _ v, σ => .ok (v, σ)
  | .var x, σ => .ok (σ x, σ)
  | .cast t e, σ => do
    let (v, σ) ← ceval Γ e σ
    .ok (CTy.conv t v, σ)
  | .un op e, σ => do
    let (v, σ) ← ceval Γ e σ
    .ok (unop (e.ty Γ).promote op v, σ)
  | .lnot e, σ => do
    let (v, σ) ← ceval Γ e σ
    .ok (truth (v = 0), σ)
  | .bin op a b, σ => do
    let (v, σ) ← ceval Γ a σ
    let (w, σ) ← ceval Γ b σ
    let r ← binop op (a.ty Γ) (b.ty Γ) v w
    .ok (r, σ)
  | .cmp op a b, σ => do
    let (v, σ) ← ceval Γ a σ
    let (w, σ) ← ceval Γ b σ
    let t := CTy.common (a.ty Γ).promote (b.ty Γ).promote
    .ok (cmpVal op (CTy.conv t v) (CTy.conv t w), σ)
  | .land a b, σ => do
    let (v, σ) ← ceval Γ a σ
    if v = 0 then .ok (0, σ)
    else do
      let (w, σ) ← ceval Γ b σ
      .ok (truth (w ≠ 0), σ)
  | .lor a b, σ => do
    let (v, σ) ← ceval Γ a σ
    if v ≠ 0 then .ok (1, σ)
    else do
      let (w, σ) ← ceval Γ b σ
      .ok (truth (w ≠ 0), σ)
  | .cond c a b, σ => do
    let (v, σ) ← ceval Γ c σ
    let t := CTy.common (a.ty Γ).promote (b.ty Γ).promote
    if v ≠ 0 then do
      let (w, σ) ← ceval Γ a σ
      .ok (CTy.conv t w, σ)
    else do
      let (w, σ) ← ceval Γ b σ
      .ok (CTy.conv t w, σ)
  | .comma a b, σ => do
    let (_, σ) ← ceval Γ a σ
    ceval Γ b σ
  | .assign x e, σ => do
    let (v, σ) ← ceval Γ e σ
    let w := CTy.conv (Γ x) v
    .ok (w, σ.set x w)
  | .opAssign op x e, σ => do
    let old := σ x
    let (v, σ) ← ceval Γ e σ
    let r ← binop op (Γ x) (e.ty Γ) old v
    let w := CTy.conv (Γ x) r
    .ok (w, σ.set x w)
  | .incr pre up x, σ => do
    let old := σ x
    let r ← binop (.ar (if up then .add else .sub)) (Γ x) .int old 1
    let w := CTy.conv (Γ x) r
    .ok (if pre then w else old, σ.set x w)

/-- Literals have a value of their type. -/
def Expr.Wf : Expr → Prop
  | .num t v => CTy.InRange t v
  | .var _ => True
  | .cast _ e => e.Wf
  | .un _ e => e.Wf
  | .lnot e => e.Wf
  | .bin _ a b => a.Wf ∧ b.Wf
  | .cmp _ a b => a.Wf ∧ b.Wf
  | .land a b => a.Wf ∧ b.Wf
  | .lor a b => a.Wf ∧ b.Wf
  | .cond c a b => c.Wf ∧ a.Wf ∧ b.Wf
  | .comma a b => a.Wf ∧ b.Wf
  | .assign _ e => e.Wf
  | .opAssign _ _ e => e.Wf
  | .incr _ _ _ => True

/-- No variables, assignments or increments. -/
def Expr.Constant : Expr → Prop
  | .num _ _ => True
  | .var _ => False
  | .cast _ e => e.Constant
  | .un _ e => e.Constant
  | .lnot e => e.Constant
  | .bin _ a b => a.Constant ∧ b.Constant
  | .cmp _ a b => a.Constant ∧ b.Constant
  | .land a b => a.Constant ∧ b.Constant
  | .lor a b => a.Constant ∧ b.Constant
  | .cond c a b => c.Constant ∧ a.Constant ∧ b.Constant
  | .comma a b => a.Constant ∧ b.Constant
  | .assign _ _ => False
  | .opAssign _ _ _ => False
  | .incr _ _ _ => False

instance Expr.decWf : (e : Expr) → Decidable e.Wf
  | .num t v => inferInstanceAs (Decidable (t.minVal ≤ v ∧ v ≤ t.maxVal))
  | .var _ => isTrue trivial
  | .cast _ e => decWf e
  | .un _ e => decWf e
  | .lnot e => decWf e
  | .bin _ a b => @instDecidableAnd _ _ (decWf a) (decWf b)
  | .cmp _ a b => @instDecidableAnd _ _ (decWf a) (decWf b)
  | .land a b => @instDecidableAnd _ _ (decWf a) (decWf b)
  | .lor a b => @instDecidableAnd _ _ (decWf a) (decWf b)
  | .cond c a b => @instDecidableAnd _ _ (decWf c) (@instDecidableAnd _ _ (decWf a) (decWf b))
  | .comma a b => @instDecidableAnd _ _ (decWf a) (decWf b)
  | .assign _ e => decWf e
  | .opAssign _ _ e => decWf e
  | .incr _ _ _ => isTrue trivial

instance Expr.decConstant : (e : Expr) → Decidable e.Constant
  | .num _ _ => isTrue trivial
  | .var _ => isFalse id
  | .cast _ e => decConstant e
  | .un _ e => decConstant e
  | .lnot e => decConstant e
  | .bin _ a b => @instDecidableAnd _ _ (decConstant a) (decConstant b)
  | .cmp _ a b => @instDecidableAnd _ _ (decConstant a) (decConstant b)
  | .land a b => @instDecidableAnd _ _ (decConstant a) (decConstant b)
  | .lor a b => @instDecidableAnd _ _ (decConstant a) (decConstant b)
  | .cond c a b => @instDecidableAnd _ _ (decConstant c) (@instDecidableAnd _ _ (decConstant a) (decConstant b))
  | .comma a b => @instDecidableAnd _ _ (decConstant a) (decConstant b)
  | .assign _ _ => isFalse id
  | .opAssign _ _ _ => isFalse id
  | .incr _ _ _ => isFalse id

/-- Every variable holds a value of its type. -/
def StoreOk (Γ : Nat → CTy) (σ : Store) : Prop := ∀ x, CTy.InRange (Γ x) (σ x)

end Slimcc.Spec
