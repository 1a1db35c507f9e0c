import Verif.Spec.CExpr
import Verif.Spec.Compiled
/-!
Designators and pointer expressions of C (C23 6.5.3 postfix, unary `*` and `&`, casts, additive
operators on pointers; 6.3.3.1 arrays as pointers) and the addresses they stand for, written from
the standard over a flat memory of bytes.

`LV` are the lvalues, `PE` the expressions of pointer type, `IE` the integer expressions that occur in
them. `l[i]` is `.deref (.add (.decay l) i)` or `.deref (.add (.value l) i)`, `p->m` is
`.member (.deref p) m`.
-/
set_option autoImplicit false
namespace Slimcc.Spec

/-- Types of objects: integers, pointers, arrays, and the structures and unions of the program by
number. -/
inductive OTy where
  | int (t : CTy)
  | ptr (t : OTy)
  | arr (t : OTy) (n : Nat)
  | struct (s : Nat)
  deriving DecidableEq, Repr

/-- A structure or union: its size, and the offsets and types of the members. -/
structure StructDef where
  size : Nat
  members : List (Nat × OTy)

/-- What is declared: the structures, the types of the objects that designators start from, and the
types of the integer variables. -/
structure ODecls where
  structs : Nat → StructDef
  objs : Nat → OTy
  ints : Nat → CTy

def ODecls.sizeof (P : ODecls) : OTy → Nat
  | .int t => t.bytes
  | .ptr _ => 8
  | .arr t n => n * P.sizeof t
  | .struct s => (P.structs s).size

mutual
/-- Lvalues. -/
inductive LV where
  | var (x : Nat)
  | deref (p : PE)
  | member (l : LV) (i : Nat)
/-- Expressions of pointer type: `&l`, an array, a pointer object, `(T *)p`, `(T *)i`, `p + i`, `i + p`,
`p - i`. -/
inductive PE where
  | addr (l : LV)
  | decay (l : LV)
  | value (l : LV)
  | cast (t : OTy) (p : PE)
  | ofInt (t : OTy) (i : IE)
  | add (p : PE) (i : IE)
  | radd (i : IE) (p : PE)
  | sub (p : PE) (i : IE)
/-- Integer expressions: one over integer variables, an integer object, `(T)p` for an integer type of
the size of a pointer, the sum of two values of type `long`. -/
inductive IE where
  | expr (e : Expr)
  | obj (l : LV)
  | ofPtr (t : CTy) (p : PE)
  | plus (a b : IE)
end

mutual
/-- The type of an lvalue; none if the expression is not one of C. -/
def LV.ty (P : ODecls) : LV → Option OTy
  | .var x => some (P.objs x)
  | .deref p => p.pointee P
  | .member l i =>
    match l.ty P with
    | some (.struct s) => ((P.structs s).members[i]?).map (·.2)
    | _ => none
/-- The type pointed to. -/
def PE.pointee (P : ODecls) : PE → Option OTy
  | .addr l => l.ty P
  | .decay l =>
    match l.ty P with
    | some (.arr t _) => some t
    | _ => none
  | .value l =>
    match l.ty P with
    | some (.ptr t) => some t
    | _ => none
  | .cast t p => (p.pointee P).map fun _ => t
  | .ofInt t i => (i.ty P).map fun _ => t
  | .add p i => (i.ty P).bind fun _ => p.pointee P
  | .radd i p => (i.ty P).bind fun _ => p.pointee P
  | .sub p i => (i.ty P).bind fun _ => p.pointee P
/-- The type of an integer expression. -/
def IE.ty (P : ODecls) : IE → Option CTy
  | .expr e => some (e.ty P.ints)
  | .obj l =>
    match l.ty P with
    | some (.int t) => some t
    | _ => none
  | .ofPtr t p => (p.pointee P).bind fun _ => if t.bytes = 8 then some t else none
  | .plus a b => if a.ty P = some .long ∧ b.ty P = some .long then some .long else none
end

mutual
/-- The literals have values of their types. -/
def LV.Wf : LV → Prop
  | .var _ => True
  | .deref p => p.Wf
  | .member l _ => l.Wf
def PE.Wf : PE → Prop
  | .addr l => l.Wf
  | .decay l => l.Wf
  | .value l => l.Wf
  | .cast _ p => p.Wf
  | .ofInt _ i => i.Wf
  | .add p i => p.Wf ∧ i.Wf
  | .radd i p => i.Wf ∧ p.Wf
  | .sub p i => p.Wf ∧ i.Wf
def IE.Wf : IE → Prop
  | .expr e => e.Wf
  | .obj l => l.Wf
  | .ofPtr _ p => p.Wf
  | .plus a b => a.Wf ∧ b.Wf
end

mutual
/-- No address is computed by the addition of integers. -/
def LV.NoSum : LV → Prop
  | .var _ => True
  | .deref p => p.NoSum
  | .member l _ => l.NoSum
def PE.NoSum : PE → Prop
  | .addr l => l.NoSum
  | .decay l => l.NoSum
  | .value l => l.NoSum
  | .cast _ p => p.NoSum
  | .ofInt _ i => i.NoSum
  | .add p i => p.NoSum ∧ i.NoSum
  | .radd i p => i.NoSum ∧ p.NoSum
  | .sub p i => p.NoSum ∧ i.NoSum
def IE.NoSum : IE → Prop
  | .expr _ => True
  | .obj l => l.NoSum
  | .ofPtr _ p => p.NoSum
  | .plus _ _ => False
end

/-- A machine state as far as designators look at it: where the objects are and what the bytes of
memory are. -/
structure Machine where
  addr : Nat → BitVec 64
  mem : BitVec 64 → BitVec 8

/-- The address a reference in an object file stands for: that of the symbol, or none. -/
def Machine.symbol (M : Machine) : Option Nat → BitVec 64
  | some x => M.addr x
  | none => 0

/-- The number in the `n` bytes at `a`, least significant byte first. -/
def Machine.word (M : Machine) (a : BitVec 64) : Nat → Nat
  | 0 => 0
  | n + 1 => (M.mem a).toNat + 256 * M.word (a + 1) n

/-- The value of an integer object. -/
def Machine.int (M : Machine) (t : CTy) (a : BitVec 64) : Int :=
  if t.isSigned then CTy.conv t (M.word a t.bytes) else M.word a t.bytes

/-- The number of bytes from an element to the `v`-th after it. -/
def stride (P : ODecls) (t : Option OTy) (v : Int) : BitVec 64 :=
  BitVec.ofInt 64 (v * ((t.map P.sizeof).getD 0 : Nat))

mutual
/-- The address an lvalue designates, and the integer variables after its evaluation. -/
def LV.eval (P : ODecls) (M : Machine) : LV → Store → Res (BitVec 64 × Store)
  | .var x, σ => .ok (M.addr x, σ)
  | .deref p, σ => p.eval P M σ
  | .member l i, σ => do
    let (a, σ) ← l.eval P M σ
    match l.ty P with
    | some (.struct s) =>
      match (P.structs s).members[i]? with
      | some m => .ok (a + BitVec.ofNat 64 m.1, σ)
      | none => .undef
    | _ => .undef
/-- The address a pointer expression gives. -/
def PE.eval (P : ODecls) (M : Machine) : PE → Store → Res (BitVec 64 × Store)
  | .addr l, σ => l.eval P M σ
  | .decay l, σ => l.eval P M σ
  | .value l, σ => do
    let (a, σ) ← l.eval P M σ
    .ok (BitVec.ofNat 64 (M.word a 8), σ)
  | .cast _ p, σ => p.eval P M σ
  | .ofInt _ i, σ => do
    let (v, σ) ← i.eval P M σ
    .ok (BitVec.ofInt 64 v, σ)
  | .add p i, σ => do
    let (a, σ) ← p.eval P M σ
    let (v, σ) ← i.eval P M σ
    .ok (a + stride P (p.pointee P) v, σ)
  | .radd i p, σ => do
    let (v, σ) ← i.eval P M σ
    let (a, σ) ← p.eval P M σ
    .ok (a + stride P (p.pointee P) v, σ)
  | .sub p i, σ => do
    let (a, σ) ← p.eval P M σ
    let (v, σ) ← i.eval P M σ
    .ok (a - stride P (p.pointee P) v, σ)
/-- The value of an integer expression. -/
def IE.eval (P : ODecls) (M : Machine) : IE → Store → Res (Int × Store)
  | .expr e, σ => ceval P.ints e σ
  | .obj l, σ => do
    let (a, σ) ← l.eval P M σ
    match l.ty P with
    | some (.int t) => .ok (M.int t a, σ)
    | _ => .undef
  | .ofPtr t p, σ => do
    let (a, σ) ← p.eval P M σ
    .ok (CTy.conv t a.toNat, σ)
  | .plus a b, σ => do
    let (v, σ) ← a.eval P M σ
    let (w, σ) ← b.eval P M σ
    .ok (CTy.conv .long (v + w), σ)
end

mutual
/-- The object a designator is made from, if it does not go through a pointer read from memory. -/
def LV.root : LV → Option Nat
  | .var x => some x
  | .deref p => p.root
  | .member l _ => l.root
def PE.root : PE → Option Nat
  | .addr l => l.root
  | .decay l => l.root
  | .value _ => none
  | .cast _ p => p.root
  | .ofInt _ i => i.root
  | .add p _ => p.root
  | .radd _ p => p.root
  | .sub p _ => p.root
def IE.root : IE → Option Nat
  | .expr _ => none
  | .obj _ => none
  | .ofPtr _ p => p.root
  | .plus _ _ => none
end

/-- The designator is less than 2 GiB away from the object it is made from. -/
def LV.Stays (P : ODecls) (M : Machine) (σ : Store) (l : LV) : Prop :=
  ∀ (x : Nat) (a : BitVec 64) (σ' : Store), l.root = some x → l.eval P M σ = .ok (a, σ') →
    -2147483648 ≤ (a - M.addr x).toInt ∧ (a - M.addr x).toInt < 2147483648

mutual
/-- So are the designators it is made of. -/
def LV.Near (P : ODecls) (M : Machine) (σ : Store) : LV → Prop
  | .var _ => True
  | .deref p => LV.Stays P M σ (.deref p) ∧ p.Near P M σ
  | .member l i => LV.Stays P M σ (.member l i) ∧ l.Near P M σ
def PE.Near (P : ODecls) (M : Machine) (σ : Store) : PE → Prop
  | .addr l => l.Near P M σ
  | .decay l => l.Near P M σ
  | .value l => l.Near P M σ
  | .cast _ p => p.Near P M σ
  | .ofInt _ i => i.Near P M σ
  | .add p _ => p.Near P M σ
  | .radd _ p => p.Near P M σ
  | .sub p _ => p.Near P M σ
def IE.Near (P : ODecls) (M : Machine) (σ : Store) : IE → Prop
  | .expr _ => True
  | .obj _ => True
  | .ofPtr _ p => p.Near P M σ
  | .plus _ _ => True
end

/-- A subscript that is an integer constant expression with a value. -/
inductive Index (P : ODecls) : IE → Prop where
  | mk (e : Expr) (v : Int) (σ σ' : Store) : e.Wf → e.Constant → StoreOk P.ints σ → ceval P.ints e σ = .ok (v, σ') →
      Index P (.expr e)

/-- Designators made from a variable, or from an object at a constant address, with members and
constant subscripts of arrays. -/
inductive Fixed (P : ODecls) : LV → Prop where
  | var (x : Nat) : Fixed P (.var x)
  | «at» (t : OTy) (i : IE) : Index P i → Fixed P (.deref (.ofInt t i))
  | member (l : LV) (i : Nat) : Fixed P l → Fixed P (.member l i)
  | elem (l : LV) (i : IE) : Fixed P l → Index P i → Fixed P (.deref (.add (.decay l) i))

/-- Address constants (C23 6.6 p11) made from them: their addresses, arrays, casts to pointer types, and
the addition or subtraction of constants. -/
inductive AddrConst (P : ODecls) : PE → Prop where
  | addr (l : LV) : Fixed P l → AddrConst P (.addr l)
  | decay (l : LV) : Fixed P l → AddrConst P (.decay l)
  | cast (t : OTy) (p : PE) : AddrConst P p → AddrConst P (.cast t p)
  | add (p : PE) (i : IE) : AddrConst P p → Index P i → AddrConst P (.add p i)
  | radd (i : IE) (p : PE) : Index P i → AddrConst P p → AddrConst P (.radd i p)
  | sub (p : PE) (i : IE) : AddrConst P p → Index P i → AddrConst P (.sub p i)

end Slimcc.Spec
