import Verif.Spec.CInt
/-!
The types of expressions, written from C23 6.3.2.1 and 6.5 (with the GNU extensions that allow
arithmetic on any pointer).

Simplifications: the qualifiers are `const` and `volatile`; bit-fields, `_Atomic`, complex numbers
and variable length arrays are left out; a list of parameters is known by a number. The
arguments of a call are checked elsewhere and not mentioned.
-/
set_option autoImplicit false
namespace Slimcc.Spec

/-- `const` and `volatile`. -/
structure XQ where
  c : Bool
  v : Bool
  deriving DecidableEq, Repr

def XQ.none : XQ := ⟨false, false⟩
def XQ.union (a b : XQ) : XQ := ⟨a.c || b.c, a.v || b.v⟩

/-- Unqualified types. What a pointer points to and what an array consists of may be qualified. -/
inductive XTy where
  | void
  | arith (a : CATy)
  /-- a structure or union, known by its number -/
  | struct (id : Nat)
  | ptr (q : XQ) (t : XTy)
  /-- an array; of unknown size if there is no number -/
  | arr (q : XQ) (t : XTy) (n : Option Nat)
  | fn (ret : XTy) (params : Nat)
  deriving DecidableEq, Repr

/-- Expressions. -/
inductive XExpr where
  /-- an identifier declared with this type -/
  | var (q : XQ) (t : XTy)
  | num (a : CATy)
  /-- a string of `n` characters, the final zero included -/
  | str (n : Nat)
  | pos (e : XExpr) | neg (e : XExpr) | bitnot (e : XExpr) | lnot (e : XExpr)
  | deref (e : XExpr) | addr (e : XExpr) | sizeofE (e : XExpr)
  | index (a i : XExpr)
  | member (e : XExpr) (m : Nat) | arrow (e : XExpr) (m : Nat)
  | call (f : XExpr)
  | cast (q : XQ) (t : XTy) (e : XExpr)
  /-- `*`, `/`, `%`, `&`, `|`, `^` -/
  | mulOp (a b : XExpr)
  | add (a b : XExpr) | sub (a b : XExpr)
  | shift (a b : XExpr)
  /-- `<`, `==` and the like -/
  | cmp (a b : XExpr)
  /-- `&&`, `||` -/
  | logic (a b : XExpr)
  | cond (c a b : XExpr)
  | comma (a b : XExpr)
  | assign (a b : XExpr)
  /-- `+=` -/
  | addAssign (a b : XExpr)
  /-- `*=` and the like -/
  | mulAssign (a b : XExpr)
  | preInc (e : XExpr) | postInc (e : XExpr)
  deriving DecidableEq, Repr

/-- 6.7.4: the qualifiers of an array are those of its elements. -/
def qualify (q : XQ) : XTy → XQ × XTy
  | .arr qe e n => (XQ.none, .arr (qualify (q.union qe) e).1 (qualify (q.union qe) e).2 n)
  | t => (q, t)

/-- 6.3.2.1: the type of the value: an array becomes a pointer to its first element, a function a
pointer to it. -/
def XTy.conv : XTy → XTy
  | .arr q t _ => .ptr q t
  | .fn r p => .ptr XQ.none (.fn r p)
  | t => t

def XTy.isArr : XTy → Bool
  | .arr _ _ _ => true
  | _ => false

def XTy.isFn : XTy → Bool
  | .fn _ _ => true
  | _ => false

/-- 6.2.7: compatible types, apart from the qualifiers of the types themselves. -/
def XTy.compat : XTy → XTy → Bool
  | .void, .void => true
  | .arith a, .arith b => a == b
  | .struct i, .struct j => i == j
  | .ptr q a, .ptr r b => q == r && a.compat b
  | .arr q a n, .arr r b m => q == r && a.compat b && (n.isNone || m.isNone || n == m)
  | .fn a p, .fn b r => a.compat b && p == r
  | _, _ => false

/-- 6.2.7: the composite of two compatible types: a known size of an array is kept. -/
def XTy.composite : XTy → XTy → XTy
  | .ptr q a, .ptr _ b => .ptr q (a.composite b)
  | .arr q a n, .arr _ b m => .arr q (a.composite b) (if n.isNone then m else n)
  | .fn a p, .fn b _ => .fn (a.composite b) p
  | t, _ => t

/-- Integer types. -/
def CATy.isInt : CATy → Bool
  | .i _ => true
  | _ => false

/-- Numbers and pointers. -/
def XTy.scalar : XTy → Bool
  | .arith _ | .ptr _ _ => true
  | _ => false

/-- 6.5.4: a value of type `t` may be converted to `t0` (a pointer not to or from a floating type). -/
def Convertible (t t0 : XTy) : Prop :=
  t0 = .void ∨ (t.conv.scalar = true ∧ t0.scalar = true ∧
    (∀ a q p, t.conv = .ptr q p → t0 = .arith a → a.isInt = true) ∧
    (∀ a q p, t0 = .ptr q p → t.conv = .arith a → a.isInt = true))

/-- What an expression is: an lvalue, a function designator, or only a value. -/
inductive XCat where
  | lval | func | val
  deriving DecidableEq, Repr

/-- `e` is the integer 0 converted to a pointer to `q void`; with no qualifiers it is a null
pointer constant (6.3.2.3). -/
def VoidZero (ice0 : XExpr → Bool) (q : XQ) (e : XExpr) : Prop :=
  ∃ q0 e', e = .cast q0 (.ptr q .void) e' ∧ ice0 e' = true

/-- The value of an operand of type `t` may be used: always in C; in the plain part of the language
(see below) the operand is not an array whose elements inherit qualifiers. -/
def ByValue (plain : Bool) (t : XTy) (k : Bool) : Prop := plain = true → t.isArr = true → k = false

/-- `HasType fields ice0 plain e c q t k`: the expression `e` is of category `c` and type `q t`
(6.5); for a value, which has no qualifiers, `q` is none. `fields` tells the declared types of the
members of structures, `ice0` the integer constant expressions of value 0.

With `plain = false` these are the rules of C. With `plain = true` some expressions, for which the
compiler departs from C, are left out: the value of an array whose elements are qualified only
because the structure (or the array type) they are in is (`k` records this), and conditional
expressions whose pointer operands differ in such a way that the first is not already of the
resulting type. -/
inductive HasType (fields : Nat → Nat → Option (XQ × XTy)) (ice0 : XExpr → Bool) (plain : Bool) :
    XExpr → XCat → XQ → XTy → Bool → Prop
  /-- 6.5.1: an object -/
  | obj (q : XQ) (t : XTy) : t.isFn = false → t ≠ .void →
      HasType fields ice0 plain (.var q t) .lval (qualify q t).1 (qualify q t).2 (decide (qualify q t ≠ (q, t)))
  | fnc (r : XTy) (p : Nat) : HasType fields ice0 plain (.var XQ.none (.fn r p)) .func XQ.none (.fn r p) false
  | num (a : CATy) : HasType fields ice0 plain (.num a) .val XQ.none (.arith a) false
  | str (n : Nat) : HasType fields ice0 plain (.str n) .lval XQ.none (.arr XQ.none (.arith (.i .char)) (some n)) false
  /-- 6.5.3.3: the promoted operand -/
  | pos (e : XExpr) (c : XCat) (q : XQ) (a : CATy) (k : Bool) : HasType fields ice0 plain e c q (.arith a) k →
      HasType fields ice0 plain (.pos e) .val XQ.none (.arith (a.promote none)) false
  | neg (e : XExpr) (c : XCat) (q : XQ) (a : CATy) (k : Bool) : HasType fields ice0 plain e c q (.arith a) k →
      HasType fields ice0 plain (.neg e) .val XQ.none (.arith (a.promote none)) false
  | bitnot (e : XExpr) (c : XCat) (q : XQ) (a : CATy) (k : Bool) : HasType fields ice0 plain e c q (.arith a) k →
      a.isInt = true → HasType fields ice0 plain (.bitnot e) .val XQ.none (.arith (a.promote none)) false
  | lnot (e : XExpr) (c : XCat) (q : XQ) (t : XTy) (k : Bool) : HasType fields ice0 plain e c q t k →
      t.conv.scalar = true →
      HasType fields ice0 plain (.lnot e) .val XQ.none (.arith (.i .int)) false
  /-- 6.5.3.4 -/
  | sizeofE (e : XExpr) (c : XCat) (q : XQ) (t : XTy) (k : Bool) : HasType fields ice0 plain e c q t k →
      HasType fields ice0 plain (.sizeofE e) .val XQ.none (.arith (.i .ulong)) false
  /-- 6.5.3.2: what a pointer points to; an object -/
  | deref (e : XExpr) (c : XCat) (q : XQ) (q' : XQ) (t' : XTy) (k : Bool) :
      HasType fields ice0 plain e c q (.ptr q' t') k → t' ≠ .void → t'.isFn = false →
      HasType fields ice0 plain (.deref e) .lval (qualify q' t').1 (qualify q' t').2
        (decide (qualify q' t' ≠ (q', t')))
  /-- the first element of an array -/
  | derefArr (e : XExpr) (c : XCat) (q : XQ) (q' : XQ) (t' : XTy) (n : Option Nat) (k : Bool) :
      HasType fields ice0 plain e c q (.arr q' t' n) k → t' ≠ .void → t'.isFn = false →
      HasType fields ice0 plain (.deref e) .lval q' t' k
  /-- a function -/
  | derefFn (e : XExpr) (c : XCat) (q : XQ) (t : XTy) (r : XTy) (p : Nat) (k : Bool) :
      HasType fields ice0 plain e c q t k → t.conv = .ptr XQ.none (.fn r p) → t.isArr = false →
      HasType fields ice0 plain (.deref e) .func XQ.none (.fn r p) false
  | addr (e : XExpr) (c : XCat) (q : XQ) (t : XTy) (k : Bool) : HasType fields ice0 plain e c q t k →
      c ≠ .val → ByValue plain t k → HasType fields ice0 plain (.addr e) .val XQ.none (.ptr q t) false
  /-- 6.5.2.1: an element -/
  | index (a i : XExpr) (c c' : XCat) (q q1 : XQ) (q' : XQ) (t' : XTy) (b : CATy) (k k1 : Bool) :
      HasType fields ice0 plain a c q (.ptr q' t') k → HasType fields ice0 plain i c' q1 (.arith b) k1 → b.isInt = true →
      t' ≠ .void → t'.isFn = false →
      HasType fields ice0 plain (.index a i) .lval (qualify q' t').1 (qualify q' t').2
        (decide (qualify q' t' ≠ (q', t')))
  | indexArr (a i : XExpr) (c c' : XCat) (q q1 : XQ) (q' : XQ) (t' : XTy) (n : Option Nat) (b : CATy) (k k1 : Bool) :
      HasType fields ice0 plain a c q (.arr q' t' n) k → HasType fields ice0 plain i c' q1 (.arith b) k1 →
      b.isInt = true → t' ≠ .void → t'.isFn = false →
      HasType fields ice0 plain (.index a i) .lval q' t' k
  /-- 6.5.2.3: the member, with the qualifiers of the structure -/
  | member (e : XExpr) (m : Nat) (c : XCat) (q : XQ) (s : Nat) (k : Bool) (qf : XQ) (tf : XTy) :
      HasType fields ice0 plain e c q (.struct s) k → fields s m = some (qf, tf) → tf.isFn = false → c = .lval →
      HasType fields ice0 plain (.member e m) .lval (qualify (qf.union q) tf).1 (qualify (qf.union q) tf).2
        (decide (qualify (qf.union q) tf ≠ (qf.union q, tf)))
  | memberVal (e : XExpr) (m : Nat) (q : XQ) (s : Nat) (k : Bool) (qf : XQ) (tf : XTy) :
      HasType fields ice0 plain e .val q (.struct s) k → fields s m = some (qf, tf) → tf.isFn = false →
      tf.isArr = false → HasType fields ice0 plain (.member e m) .val XQ.none tf false
  | arrow (e : XExpr) (m : Nat) (c : XCat) (q q' : XQ) (s : Nat) (k : Bool) (qf : XQ) (tf : XTy) :
      HasType fields ice0 plain e c q (.ptr q' (.struct s)) k → fields s m = some (qf, tf) → tf.isFn = false →
      HasType fields ice0 plain (.arrow e m) .lval (qualify (qf.union q') tf).1 (qualify (qf.union q') tf).2
        (decide (qualify (qf.union q') tf ≠ (qf.union q', tf)))
  /-- 6.5.2.2 -/
  | call (f : XExpr) (c : XCat) (q : XQ) (t r : XTy) (p : Nat) (k : Bool) : HasType fields ice0 plain f c q t k →
      t.conv = .ptr XQ.none (.fn r p) → t.isArr = false → r.isArr = false → r.isFn = false →
      HasType fields ice0 plain (.call f) .val XQ.none r false
  /-- 6.5.4 -/
  | cast (q0 : XQ) (t0 : XTy) (e : XExpr) (c : XCat) (q : XQ) (t : XTy) (k : Bool) : HasType fields ice0 plain e c q t k →
      Convertible t t0 → HasType fields ice0 plain (.cast q0 t0 e) .val XQ.none t0 false
  /-- 6.5.5: the usual arithmetic conversions -/
  | mulOp (e1 e2 : XExpr) (c1 c2 : XCat) (q1 q2 : XQ) (a b : CATy) (k1 k2 : Bool) :
      HasType fields ice0 plain e1 c1 q1 (.arith a) k1 → HasType fields ice0 plain e2 c2 q2 (.arith b) k2 →
      HasType fields ice0 plain (.mulOp e1 e2) .val XQ.none (.arith ((a.promote none).common (b.promote none))) false
  | addNum (e1 e2 : XExpr) (c1 c2 : XCat) (q1 q2 : XQ) (a b : CATy) (k1 k2 : Bool) :
      HasType fields ice0 plain e1 c1 q1 (.arith a) k1 → HasType fields ice0 plain e2 c2 q2 (.arith b) k2 →
      HasType fields ice0 plain (.add e1 e2) .val XQ.none (.arith ((a.promote none).common (b.promote none))) false
  | subNum (e1 e2 : XExpr) (c1 c2 : XCat) (q1 q2 : XQ) (a b : CATy) (k1 k2 : Bool) :
      HasType fields ice0 plain e1 c1 q1 (.arith a) k1 → HasType fields ice0 plain e2 c2 q2 (.arith b) k2 →
      HasType fields ice0 plain (.sub e1 e2) .val XQ.none (.arith ((a.promote none).common (b.promote none))) false
  /-- 6.5.6: pointers -/
  | addPtr (e1 e2 : XExpr) (c1 c2 : XCat) (q1 q2 : XQ) (t : XTy) (q' : XQ) (t' : XTy) (b : CATy) (k1 k2 : Bool) :
      HasType fields ice0 plain e1 c1 q1 t k1 → t.conv = .ptr q' t' → ByValue plain t k1 →
      HasType fields ice0 plain e2 c2 q2 (.arith b) k2 → b.isInt = true →
      HasType fields ice0 plain (.add e1 e2) .val XQ.none (.ptr q' t') false
  | addPtr2 (e1 e2 : XExpr) (c1 c2 : XCat) (q1 q2 : XQ) (t : XTy) (q' : XQ) (t' : XTy) (b : CATy) (k1 k2 : Bool) :
      HasType fields ice0 plain e1 c1 q1 (.arith b) k1 → b.isInt = true →
      HasType fields ice0 plain e2 c2 q2 t k2 → t.conv = .ptr q' t' → ByValue plain t k2 →
      HasType fields ice0 plain (.add e1 e2) .val XQ.none (.ptr q' t') false
  | subPtr (e1 e2 : XExpr) (c1 c2 : XCat) (q1 q2 : XQ) (t : XTy) (q' : XQ) (t' : XTy) (b : CATy) (k1 k2 : Bool) :
      HasType fields ice0 plain e1 c1 q1 t k1 → t.conv = .ptr q' t' → ByValue plain t k1 →
      HasType fields ice0 plain e2 c2 q2 (.arith b) k2 → b.isInt = true →
      HasType fields ice0 plain (.sub e1 e2) .val XQ.none (.ptr q' t') false
  | diff (e1 e2 : XExpr) (c1 c2 : XCat) (q1 q2 : XQ) (t1 t2 : XTy) (r1 r2 : XQ) (a b : XTy) (k1 k2 : Bool) :
      HasType fields ice0 plain e1 c1 q1 t1 k1 → t1.conv = .ptr r1 a → ByValue plain t1 k1 →
      HasType fields ice0 plain e2 c2 q2 t2 k2 → t2.conv = .ptr r2 b → ByValue plain t2 k2 → a.compat b = true →
      HasType fields ice0 plain (.sub e1 e2) .val XQ.none (.arith (.i .long)) false
  /-- 6.5.7: the promoted left operand -/
  | shift (e1 e2 : XExpr) (c1 c2 : XCat) (q1 q2 : XQ) (a b : CATy) (k1 k2 : Bool) :
      HasType fields ice0 plain e1 c1 q1 (.arith a) k1 → HasType fields ice0 plain e2 c2 q2 (.arith b) k2 →
      a.isInt = true → b.isInt = true →
      HasType fields ice0 plain (.shift e1 e2) .val XQ.none (.arith (a.promote none)) false
  /-- 6.5.8, 6.5.9: numbers, or two pointers -/
  | cmpNum (e1 e2 : XExpr) (c1 c2 : XCat) (q1 q2 : XQ) (a b : CATy) (k1 k2 : Bool) :
      HasType fields ice0 plain e1 c1 q1 (.arith a) k1 → HasType fields ice0 plain e2 c2 q2 (.arith b) k2 →
      HasType fields ice0 plain (.cmp e1 e2) .val XQ.none (.arith (.i .int)) false
  | cmpPtr (e1 e2 : XExpr) (c1 c2 : XCat) (q1 q2 : XQ) (t1 t2 : XTy) (r1 r2 : XQ) (a b : XTy) (k1 k2 : Bool) :
      HasType fields ice0 plain e1 c1 q1 t1 k1 → t1.conv = .ptr r1 a → ByValue plain t1 k1 →
      HasType fields ice0 plain e2 c2 q2 t2 k2 → t2.conv = .ptr r2 b → ByValue plain t2 k2 →
      HasType fields ice0 plain (.cmp e1 e2) .val XQ.none (.arith (.i .int)) false
  /-- 6.5.13, 6.5.14 -/
  | logic (e1 e2 : XExpr) (c1 c2 : XCat) (q1 q2 : XQ) (t1 t2 : XTy) (k1 k2 : Bool) :
      HasType fields ice0 plain e1 c1 q1 t1 k1 → HasType fields ice0 plain e2 c2 q2 t2 k2 →
      t1.conv.scalar = true → t2.conv.scalar = true →
      HasType fields ice0 plain (.logic e1 e2) .val XQ.none (.arith (.i .int)) false
  /-- 6.5.17: the type of the value of the right operand -/
  | comma (e1 e2 : XExpr) (c1 c2 : XCat) (q1 q2 : XQ) (t1 t2 : XTy) (k1 k2 : Bool) :
      HasType fields ice0 plain e1 c1 q1 t1 k1 → HasType fields ice0 plain e2 c2 q2 t2 k2 → ByValue plain t2 k2 →
      HasType fields ice0 plain (.comma e1 e2) .val XQ.none t2.conv false
  /-- 6.5.16: the unqualified type of the object -/
  | assign (e1 e2 : XExpr) (c2 : XCat) (q1 q2 : XQ) (t1 t2 : XTy) (k1 k2 : Bool) :
      HasType fields ice0 plain e1 .lval q1 t1 k1 → t1.isArr = false → t1.isFn = false →
      HasType fields ice0 plain e2 c2 q2 t2 k2 → t1 ≠ .void →
      (∃ s, t1 = .struct s ∧ t2 = .struct s) ∨ ((∀ s, t1 ≠ .struct s) ∧ Convertible t2 t1) →
      HasType fields ice0 plain (.assign e1 e2) .val XQ.none t1 false
  | mulAssign (e1 e2 : XExpr) (c2 : XCat) (q1 q2 : XQ) (a b : CATy) (k1 k2 : Bool) :
      HasType fields ice0 plain e1 .lval q1 (.arith a) k1 → HasType fields ice0 plain e2 c2 q2 (.arith b) k2 →
      HasType fields ice0 plain (.mulAssign e1 e2) .val XQ.none (.arith a) false
  | addAssignNum (e1 e2 : XExpr) (c2 : XCat) (q1 q2 : XQ) (a b : CATy) (k1 k2 : Bool) :
      HasType fields ice0 plain e1 .lval q1 (.arith a) k1 → HasType fields ice0 plain e2 c2 q2 (.arith b) k2 →
      HasType fields ice0 plain (.addAssign e1 e2) .val XQ.none (.arith a) false
  | addAssignPtr (e1 e2 : XExpr) (c2 : XCat) (q1 q2 : XQ) (q' : XQ) (t' : XTy) (b : CATy) (k1 k2 : Bool) :
      HasType fields ice0 plain e1 .lval q1 (.ptr q' t') k1 → HasType fields ice0 plain e2 c2 q2 (.arith b) k2 →
      b.isInt = true → HasType fields ice0 plain (.addAssign e1 e2) .val XQ.none (.ptr q' t') false
  /-- 6.5.2.4, 6.5.3.1 -/
  | preIncNum (e : XExpr) (q : XQ) (a : CATy) (k : Bool) : HasType fields ice0 plain e .lval q (.arith a) k →
      HasType fields ice0 plain (.preInc e) .val XQ.none (.arith a) false
  | preIncPtr (e : XExpr) (q q' : XQ) (t' : XTy) (k : Bool) : HasType fields ice0 plain e .lval q (.ptr q' t') k →
      HasType fields ice0 plain (.preInc e) .val XQ.none (.ptr q' t') false
  | postIncNum (e : XExpr) (q : XQ) (a : CATy) (k : Bool) : HasType fields ice0 plain e .lval q (.arith a) k →
      HasType fields ice0 plain (.postInc e) .val XQ.none (.arith a) false
  | postIncPtr (e : XExpr) (q q' : XQ) (t' : XTy) (k : Bool) : HasType fields ice0 plain e .lval q (.ptr q' t') k →
      HasType fields ice0 plain (.postInc e) .val XQ.none (.ptr q' t') false
  /-- 6.5.15: numbers -/
  | condNum (e e1 e2 : XExpr) (c0 c1 c2 : XCat) (q0 q1 q2 : XQ) (t0 : XTy) (a b : CATy) (k0 k1 k2 : Bool) :
      HasType fields ice0 plain e c0 q0 t0 k0 → t0.conv.scalar = true →
      HasType fields ice0 plain e1 c1 q1 (.arith a) k1 → HasType fields ice0 plain e2 c2 q2 (.arith b) k2 →
      HasType fields ice0 plain (.cond e e1 e2) .val XQ.none (.arith ((a.promote none).common (b.promote none))) false
  /-- the same structure, or nothing -/
  | condStruct (e e1 e2 : XExpr) (c0 c1 c2 : XCat) (q0 q1 q2 : XQ) (t0 : XTy) (s : Nat) (k0 k1 k2 : Bool) :
      HasType fields ice0 plain e c0 q0 t0 k0 → t0.conv.scalar = true →
      HasType fields ice0 plain e1 c1 q1 (.struct s) k1 → HasType fields ice0 plain e2 c2 q2 (.struct s) k2 →
      HasType fields ice0 plain (.cond e e1 e2) .val XQ.none (.struct s) false
  | condVoid (e e1 e2 : XExpr) (c0 c1 c2 : XCat) (q0 q1 q2 : XQ) (t0 : XTy) (k0 k1 k2 : Bool) :
      HasType fields ice0 plain e c0 q0 t0 k0 → t0.conv.scalar = true →
      HasType fields ice0 plain e1 c1 q1 .void k1 → HasType fields ice0 plain e2 c2 q2 .void k2 →
      HasType fields ice0 plain (.cond e e1 e2) .val XQ.none .void false
  /-- pointers to compatible types: to the composite type with the qualifiers of both -/
  | condPtr (e e1 e2 : XExpr) (c0 c1 c2 : XCat) (q0 q1 q2 : XQ) (t0 t1 t2 : XTy) (r1 r2 : XQ) (a b : XTy) (k0 k1 k2 : Bool) :
      HasType fields ice0 plain e c0 q0 t0 k0 → t0.conv.scalar = true →
      HasType fields ice0 plain e1 c1 q1 t1 k1 → t1.conv = .ptr r1 a → ByValue plain t1 k1 →
      HasType fields ice0 plain e2 c2 q2 t2 k2 → t2.conv = .ptr r2 b → ByValue plain t2 k2 →
      ¬ VoidZero ice0 XQ.none e1 → ¬ VoidZero ice0 XQ.none e2 → a.compat b = true →
      (plain = true → r1.union r2 = r1 ∧ a.composite b = a ∧ ∀ q, ¬ VoidZero ice0 q e1 ∧ ¬ VoidZero ice0 q e2) →
      HasType fields ice0 plain (.cond e e1 e2) .val XQ.none (.ptr (r1.union r2) (a.composite b)) false
  /-- one a pointer to `void`: to `void` with the qualifiers of both -/
  | condVoidPtr (e e1 e2 : XExpr) (c0 c1 c2 : XCat) (q0 q1 q2 : XQ) (t0 t1 t2 : XTy) (r1 r2 : XQ) (a b : XTy) (k0 k1 k2 : Bool) :
      HasType fields ice0 plain e c0 q0 t0 k0 → t0.conv.scalar = true →
      HasType fields ice0 plain e1 c1 q1 t1 k1 → t1.conv = .ptr r1 a → ByValue plain t1 k1 →
      HasType fields ice0 plain e2 c2 q2 t2 k2 → t2.conv = .ptr r2 b → ByValue plain t2 k2 →
      ¬ VoidZero ice0 XQ.none e1 → ¬ VoidZero ice0 XQ.none e2 → a = .void ∨ b = .void → a.compat b = false →
      (plain = true → r1.union r2 = XQ.none ∧ ∀ q, ¬ VoidZero ice0 q e1 ∧ ¬ VoidZero ice0 q e2) →
      HasType fields ice0 plain (.cond e e1 e2) .val XQ.none (.ptr (r1.union r2) .void) false
  /-- one a null pointer constant: the type of the other -/
  | condNullR (e e1 e2 : XExpr) (c0 c1 c2 : XCat) (q0 q1 q2 : XQ) (t0 t1 : XTy) (r1 : XQ) (a : XTy) (b : CATy) (k0 k1 k2 : Bool) :
      HasType fields ice0 plain e c0 q0 t0 k0 → t0.conv.scalar = true →
      HasType fields ice0 plain e1 c1 q1 t1 k1 → t1.conv = .ptr r1 a → ByValue plain t1 k1 →
      HasType fields ice0 plain e2 c2 q2 (.arith b) k2 → b.isInt = true → ice0 e2 = true →
      HasType fields ice0 plain (.cond e e1 e2) .val XQ.none (.ptr r1 a) false
  | condNullL (e e1 e2 : XExpr) (c0 c1 c2 : XCat) (q0 q1 q2 : XQ) (t0 t2 : XTy) (r2 : XQ) (b : XTy) (a : CATy) (k0 k1 k2 : Bool) :
      HasType fields ice0 plain e c0 q0 t0 k0 → t0.conv.scalar = true →
      HasType fields ice0 plain e1 c1 q1 (.arith a) k1 → a.isInt = true → ice0 e1 = true →
      HasType fields ice0 plain e2 c2 q2 t2 k2 → t2.conv = .ptr r2 b → ByValue plain t2 k2 →
      HasType fields ice0 plain (.cond e e1 e2) .val XQ.none (.ptr r2 b) false
  | condVoid0R (e e1 e2 : XExpr) (c0 c1 c2 : XCat) (q0 q1 q2 q3 : XQ) (t0 t1 : XTy) (r1 : XQ) (a : XTy) (b : CATy) (k0 k1 k2 : Bool) :
      HasType fields ice0 plain e c0 q0 t0 k0 → t0.conv.scalar = true →
      HasType fields ice0 plain e1 c1 q1 t1 k1 → t1.conv = .ptr r1 a → ByValue plain t1 k1 →
      HasType fields ice0 plain e2 c2 q2 (.arith b) k2 → b.isInt = true → ice0 e2 = true →
      HasType fields ice0 plain (.cond e e1 (.cast q3 (.ptr XQ.none .void) e2)) .val XQ.none (.ptr r1 a) false
  | condVoid0L (e e1 e2 : XExpr) (c0 c1 c2 : XCat) (q0 q1 q2 q3 : XQ) (t0 t2 : XTy) (r2 : XQ) (b : XTy) (a : CATy) (k0 k1 k2 : Bool) :
      HasType fields ice0 plain e c0 q0 t0 k0 → t0.conv.scalar = true →
      HasType fields ice0 plain e1 c1 q1 (.arith a) k1 → a.isInt = true → ice0 e1 = true →
      HasType fields ice0 plain e2 c2 q2 t2 k2 → t2.conv = .ptr r2 b → ByValue plain t2 k2 →
      (plain = true → ∀ q, ¬ VoidZero ice0 q e2) →
      HasType fields ice0 plain (.cond e (.cast q3 (.ptr XQ.none .void) e1) e2) .val XQ.none (.ptr r2 b) false

end Slimcc.Spec
