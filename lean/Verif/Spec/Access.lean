import Verif.Spec.Lvalue
import Verif.Spec.Sequenced
/-!
Accesses to memory through designators, for the code compiled from them: which designators are meant,
and what must hold of the memory they read.
-/
set_option autoImplicit false
namespace Slimcc.Spec
open Slimcc.X86 (Word)

mutual
/-- No conversion between integers and pointers. -/
def LV.NoConv : LV → Prop
  | .var _ => True
  | .deref p => p.NoConv
  | .member l _ => l.NoConv
def PE.NoConv : PE → Prop
  | .addr l => l.NoConv
  | .decay l => l.NoConv
  | .value l => l.NoConv
  | .cast _ p => p.NoConv
  | .ofInt _ _ => False
  | .add p i => p.NoConv ∧ i.NoConv
  | .radd i p => i.NoConv ∧ p.NoConv
  | .sub p i => p.NoConv ∧ i.NoConv
def IE.NoConv : IE → Prop
  | .expr _ => True
  | .obj l => l.NoConv
  | .ofPtr _ _ => False
  | .plus _ _ => False
end

mutual
/-- The expressions over integer variables in it. -/
def LV.exprs : LV → List Expr
  | .var _ => []
  | .deref p => p.exprs
  | .member l _ => l.exprs
def PE.exprs : PE → List Expr
  | .addr l => l.exprs
  | .decay l => l.exprs
  | .value l => l.exprs
  | .cast _ p => p.exprs
  | .ofInt _ i => i.exprs
  | .add p i => p.exprs ++ i.exprs
  | .radd i p => i.exprs ++ p.exprs
  | .sub p i => p.exprs ++ i.exprs
def IE.exprs : IE → List Expr
  | .expr e => [e]
  | .obj l => l.exprs
  | .ofPtr _ p => p.exprs
  | .plus a b => a.exprs ++ b.exprs
end

/-- The variables are in scope, and if `opt`, no operand assigns what another uses. -/
def Usable (E : Env) (opt : Bool) (es : List Expr) : Prop :=
  ∀ e ∈ es, (∀ x ∈ e.vars, E.dom x) ∧ (opt = true → e.Sequenced)

/-- Less than 2 GiB apart. -/
def Short (a b : Word) : Prop := -2147483648 ≤ (a - b).toInt ∧ (a - b).toInt < 2147483648

mutual
/-- The address `a` is near the objects that contain the one designated, and near the pointers that
constants are added to. -/
def LV.Close (P : ODecls) (M : Machine) (σ : Store) (a : Word) : LV → Prop
  | .var _ => True
  | .deref p => p.Close P M σ a
  | .member l _ => (∀ (b : Word) (σ' : Store), l.eval P M σ = .ok (b, σ') → Short a b) ∧ l.Close P M σ a
def PE.Close (P : ODecls) (M : Machine) (σ : Store) (a : Word) : PE → Prop
  | .addr _ => True
  | .decay l => l.Close P M σ a
  | .value _ => True
  | .cast _ p => p.Close P M σ a
  | .ofInt _ _ => True
  | .add p _ => (∀ (b : Word) (σ' : Store), p.eval P M σ = .ok (b, σ') → Short a b) ∧ p.Close P M σ a
  | .radd _ _ => True
  | .sub p _ => (∀ (b : Word) (σ' : Store), p.eval P M σ = .ok (b, σ') → Short a b) ∧ p.Close P M σ a
end

/-- The `n` bytes at `a` are neither in an integer variable nor in a temporary. -/
def Env.Apart (E : Env) (a : Word) (n : Nat) : Prop := ∀ b, InBlk a n b → E.Outside E.K b

/-- An object of `n` bytes can be read. -/
def LV.Access (P : ODecls) (M : Machine) (E : Env) (σ : Store) (l : LV) (n : Nat) : Prop :=
  ∀ (a : Word) (σ' : Store), l.eval P M σ = .ok (a, σ') → E.Apart a n ∧ l.Close P M σ a

/-- The bytes are a value of the type: those of a `bool` are 0 or 1. -/
def LV.Valid (P : ODecls) (M : Machine) (σ : Store) (l : LV) (t : CTy) : Prop :=
  ∀ (a : Word) (σ' : Store), l.eval P M σ = .ok (a, σ') → CTy.InRange t (M.int t a)

mutual
/-- The objects read on the way are apart from the integer variables and the temporaries; the parts of
objects are near them (`Near`). -/
def LV.Fine (P : ODecls) (M : Machine) (E : Env) (σ : Store) : LV → Prop
  | .var _ => True
  | .deref p => LV.Near P M σ (.deref p) ∧ p.Fine P M E σ
  | .member l i => LV.Near P M σ (.member l i) ∧ l.Fine P M E σ
def PE.Fine (P : ODecls) (M : Machine) (E : Env) (σ : Store) : PE → Prop
  | .addr l => l.Fine P M E σ
  | .decay l => l.Fine P M E σ
  | .value l => l.Fine P M E σ ∧ l.Access P M E σ 8
  | .cast _ p => p.Fine P M E σ
  | .ofInt _ i => i.Fine P M E σ
  | .add p i => p.Fine P M E σ ∧ ∀ (a : Word) (σ' : Store), p.eval P M σ = .ok (a, σ') → i.Fine P M E σ'
  | .radd i p => i.Fine P M E σ ∧ ∀ (v : Int) (σ' : Store), i.eval P M σ = .ok (v, σ') → p.Fine P M E σ'
  | .sub p i => p.Fine P M E σ ∧ ∀ (a : Word) (σ' : Store), p.eval P M σ = .ok (a, σ') → i.Fine P M E σ'
def IE.Fine (P : ODecls) (M : Machine) (E : Env) (σ : Store) : IE → Prop
  | .expr _ => True
  | .obj l => l.Fine P M E σ ∧ ∀ t, l.ty P = some (.int t) → l.Access P M E σ t.bytes ∧ l.Valid P M σ t
  | .ofPtr _ p => p.Fine P M E σ
  | .plus a b => a.Fine P M E σ ∧ ∀ (v : Int) (σ' : Store), a.eval P M σ = .ok (v, σ') → b.Fine P M E σ'
end

/-- Where the objects are: an offset from the frame register or a symbol, with an offset added. -/
structure Objects where
  at_ : Nat → Int → X86.MemOp

/-- The operands stand for the addresses of the objects. -/
def Objects.Ok (O : Objects) (E : Env) (addr : Nat → Word) : Prop :=
  ∀ (x : Nat) (o : Int), ((∃ k, O.at_ x o = .frame k ∧ E.bp + BitVec.ofInt 64 k = addr x + BitVec.ofInt 64 o) ∨
    (∃ g, O.at_ x o = .sym g ∧ E.sym g = addr x + BitVec.ofInt 64 o))

/-- The state in which compiled code starts: the program defines no label twice, `E` says where the
integer variables are, `O` where the objects are, and memory holds the values of the variables. -/
structure Started (P : ODecls) (E : Env) (O : Objects) (addr : Nat → Word) (Pg : List X86.Line) (σ : Store)
    (s : X86.St) : Prop where
  env : E.Ok
  labels : UniqueLabels Pg
  ints : E.Γ = P.ints
  objs : O.Ok E addr
  store : StoreOk E.Γ σ
  bp : s.r .bp = E.bp
  rel : Rel E σ s.m

/-- What code that writes no object leaves: the integer variables have the values `σ'`, and what is
neither a variable nor a temporary is as it was. -/
structure Kept (E : Env) (σ' : Store) (s s' : X86.St) : Prop where
  rel : Rel E σ' s'.m
  bp : s'.r .bp = E.bp
  mem : ∀ b, E.Outside E.K b → s'.m b = s.m b

/-- The same, but for the `n` bytes at `a`. -/
structure KeptBut (E : Env) (σ' : Store) (a : Word) (n : Nat) (s s' : X86.St) : Prop where
  rel : Rel E σ' s'.m
  bp : s'.r .bp = E.bp
  mem : ∀ b, E.Outside E.K b → ¬ InBlk a n b → s'.m b = s.m b

end Slimcc.Spec
