import Verif.Spec.Compiled
import Verif.Spec.Sequenced
/-!
Programs of several threads that share atomic objects, and their meaning in C (C23 5.1.2.5, 6.5.17.3p5,
6.5.3.5, 6.5.4.2): a compound assignment, increment or decrement of an atomic object is a single
read-modify-write operation, a load or store of one is a single operation, and all operations
happen in some order that has the operations of each thread in the order of its program
(sequential consistency, C23 7.17.3p6). Objects and variables are integers; the variables of a
thread are its own.
-/
set_option autoImplicit false
namespace Slimcc.Atomic
open Slimcc.Spec

/-- A statement of a thread. `g` is an atomic object; the other names are variables of the thread. -/
inductive Stmt where
  /-- `e;` -/
  | run (e : Expr)
  /-- `if (e) goto k;`, to statement number `k` -/
  | branch (e : Expr) (k : Nat)
  /-- `r = g;` -/
  | load (r g : Nat)
  /-- `g = e;` -/
  | store (g : Nat) (e : Expr)
  /-- `g op= e;` or `r = g op= e;`; with `post`, the value is that before the operation (`g++` is
  `op` addition, `e` 1). -/
  | rmw (r : Option Nat) (post : Bool) (g : Nat) (op : BinOp) (e : Expr)

/-- The program: the types of the atomic objects, and for each thread the types of its variables and
its statements. -/
structure Prog where
  O : Nat → CTy
  Γ : Nat → Nat → CTy
  code : Nat → List Stmt

/-- The values of the objects; for each thread the number of its next statement and the values of
its variables. -/
structure State where
  A : Store
  th : Nat → Nat × Store

/-- Assignment to a variable, with conversion. -/
def assign (Γ : Nat → CTy) (σ : Store) (r : Option Nat) (v : Int) : Store :=
  match r with
  | none => σ
  | some x => σ.set x (CTy.conv (Γ x) v)

/-- A statement as one operation: the objects, the number of the next statement (`k` is that of this
one), the variables. -/
def Stmt.sem (O Γ : Nat → CTy) (A : Store) (k : Nat) (σ : Store) : Stmt → Res (Store × Nat × Store)
  | .run e => do
    let (_, σ) ← ceval Γ e σ
    .ok (A, k + 1, σ)
  | .branch e j => do
    let (v, σ) ← ceval Γ e σ
    .ok (A, if v ≠ 0 then j else k + 1, σ)
  | .load r g => .ok (A, k + 1, assign Γ σ (some r) (A g))
  | .store g e => do
    let (v, σ) ← ceval Γ e σ
    .ok (A.set g (CTy.conv (O g) v), k + 1, σ)
  | .rmw r post g op e => do
    let (v, σ) ← ceval Γ e σ
    let w ← binop op (O g) (e.ty Γ) (A g) v
    let n := CTy.conv (O g) w
    .ok (A.set g n, k + 1, assign Γ σ r (if post then A g else n))

/-- Thread `i` does its next statement; a thread that is at its end does nothing. -/
def Prog.step (p : Prog) (i : Nat) (S : State) : Res State :=
  match (p.code i)[(S.th i).1]? with
  | none => .ok S
  | some s => do
    let (A, k, σ) ← s.sem p.O (p.Γ i) S.A (S.th i).1 (S.th i).2
    .ok ⟨A, fun j => if j = i then (k, σ) else S.th j⟩

/-- The threads do their statements in the given order. -/
def Prog.run (p : Prog) : List Nat → State → Res State
  | [], S => .ok S
  | i :: l, S => do
    let S ← p.step i S
    p.run l S

/-- Whatever the order, no behaviour is undefined. -/
def Prog.Defined (p : Prog) (S : State) : Prop := ∀ l, ∃ S', p.run l S = .ok S'

/-- All values are values of their types. -/
def Prog.StateOk (p : Prog) (S : State) : Prop := StoreOk p.O S.A ∧ ∀ i, StoreOk (p.Γ i) (S.th i).2

/-- The variables of a statement. -/
def Stmt.vars : Stmt → List Nat
  | .run e => e.vars
  | .branch e _ => e.vars
  | .load r _ => [r]
  | .store _ e => e.vars
  | .rmw r _ _ _ e => r.toList ++ e.vars

/-- The expression of a statement. -/
def Stmt.expr : Stmt → Option Expr
  | .run e => some e
  | .branch e _ => some e
  | .load _ _ => none
  | .store _ e => some e
  | .rmw _ _ _ _ e => some e

/-- The objects of a statement. -/
def Stmt.objs : Stmt → List Nat
  | .run _ => []
  | .branch _ _ => []
  | .load _ g => [g]
  | .store g _ => [g]
  | .rmw _ _ g _ _ => [g]

/-- What slimcc translates as C requires: in `g = e` the low bytes of the value of `e` are the value
converted (see C56_store_not_converted for the rest), a load `r = g` is to a variable not wider than
the object and not of type `_Bool`, and the result of an operation is not converted to `_Bool`. -/
def Stmt.Fine (O Γ : Nat → CTy) : Stmt → Prop
  | .load r g => Γ r ≠ .bool ∧ (Γ r).bytes ≤ (O g).bytes
  | .store g e => (O g = .bool ∧ e.ty Γ = .bool) ∨ (O g ≠ .bool ∧ ((O g).bytes ≤ 4 ∨ (e.ty Γ).bytes = 8))
  | .rmw (some r) _ _ _ _ => Γ r ≠ .bool
  | _ => True

/-- `x++;` -/
def incStmt (x : Nat) : Stmt := .rmw none true x (.ar .add) (.num .int 1)

/-- `f 0 + … + f (n - 1)`. -/
def sumTo (f : Nat → Nat) : Nat → Nat
  | 0 => 0
  | n + 1 => sumTo f n + f n

end Slimcc.Atomic
