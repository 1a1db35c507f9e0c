/-
Specification for C37: how the System V ABI for x86-64 (section 3.2.3) passes
arguments.  Written from the ABI; only the syntax of types and the names of
registers come from the model.

Not covered: an aggregate with a `long double` in it is taken to be passed in
memory (the ABI makes an exception for some unions).
-/
import Verif.Model.CallTypes
set_option autoImplicit false

namespace Slimcc.SysV
open Slimcc.CC (SK CTy Mems Reg Loc)

mutual
/-- The scalars in a type, with their offsets. -/
def leaves : CTy → Nat → List (Nat × SK)
  | .scalar k _, off => [(off, k)]
  | .arr b n, off => (List.range n).flatMap (fun i => leaves b (off + b.size * i))
  | .agg _ _ _ ms, off => leavesM ms off
def leavesM : Mems → Nat → List (Nat × SK)
  | .nil, _ => []
  | .cons o t ms, off => leaves t (off + o) ++ leavesM ms off
end

/-- The classes of section 3.2.3 that matter here. -/
inductive Class where
  | none | integer | sse | x87
  deriving DecidableEq, Repr

def scalarClass : SK → Class
  | .int _ => .integer
  | .float | .double => .sse
  | .ldouble => .x87

/-- A scalar occupies part of eightbyte `e`. -/
def inEightbyte (e : Nat) (l : Nat × SK) : Bool := l.1 < 8 * e + 8 && 8 * e < l.1 + l.2.size

/-- The class of eightbyte `e`: that of its scalars, INTEGER being the
stronger. -/
def classOf (t : CTy) (e : Nat) : Class :=
  let cs := ((leaves t 0).filter (inEightbyte e)).map (fun l => scalarClass l.2)
  if .integer ∈ cs then .integer
  else if .x87 ∈ cs then .x87
  else if .sse ∈ cs then .sse
  else .none

def naturalAlign : SK → Nat
  | .int n => n
  | .float => 4
  | .double => 8
  | .ldouble => 16

/-- The argument goes in memory whatever registers there are: larger than two
eightbytes, with unaligned fields, or on the x87. -/
def InMemory (t : CTy) : Prop :=
  16 < t.size ∨ ∃ l ∈ leaves t 0, l.1 % naturalAlign l.2 ≠ 0 ∨ l.2 = .ldouble

/-- The classes of all eightbytes. -/
def eightbytes (t : CTy) : List Class := (List.range ((t.size + 7) / 8)).map (classOf t)

/-- The registers for the eightbytes, from the given ones on. -/
def give : List Class → Nat → Nat → List Reg
  | [], _, _ => []
  | .integer :: cs, i, s => .gp i :: give cs (i + 1) s
  | .sse :: cs, i, s => .fp s :: give cs i (s + 1)
  | _ :: cs, i, s => give cs i s

def roundUp (n a : Nat) : Nat := (n + a - 1) / a * a

/-- What has been given out: integer registers, vector registers, stack. -/
structure Used where
  int : Nat
  sse : Nat
  stack : Nat
  deriving DecidableEq, Repr

/-- One argument.  If it is not passed in memory and there are registers left
for all its eightbytes, they are used in order; otherwise it goes on the stack
at the next suitably aligned place. -/
inductive Step (t : CTy) (u : Used) : Loc → Used → Prop where
  | regs : ¬ InMemory t → u.int + (eightbytes t).count .integer ≤ 6 →
      u.sse + (eightbytes t).count .sse ≤ 8 →
      Step t u (.regs (give (eightbytes t) u.int u.sse))
        { u with int := u.int + (eightbytes t).count .integer,
                 sse := u.sse + (eightbytes t).count .sse }
  | stack : (InMemory t ∨ 6 < u.int + (eightbytes t).count .integer ∨
        8 < u.sse + (eightbytes t).count .sse) →
      Step t u (.stack (roundUp u.stack (max 8 t.align)))
        { u with stack := roundUp u.stack (max 8 t.align) + roundUp t.size 8 }

/-- All arguments, from left to right. -/
inductive Passed : List CTy → Used → List Loc → Used → Prop where
  | nil (u : Used) : Passed [] u [] u
  | cons {t : CTy} {ts : List CTy} {u u' u'' : Used} {l : Loc} {ls : List Loc} :
      Step t u l u' → Passed ts u' ls u'' → Passed (t :: ts) u (l :: ls) u''

/-- At the start: the address for a result that goes in memory is a hidden first
argument. -/
def start (hidden : Bool) : Used := { int := if hidden then 1 else 0, sse := 0, stack := 0 }

/-! ### The types considered -/

mutual
/-- Members are in order and inside the aggregate. -/
def WF : CTy → Prop
  | .scalar k _ => 0 < k.size
  | .arr b _ => WF b
  | .agg _ s _ ms => WFm ms 0 s
def WFm : Mems → Nat → Nat → Prop
  | .nil, _, _ => True
  | .cons o t ms, prev, s => prev ≤ o ∧ o + t.size ≤ s ∧ WF t ∧ WFm ms o s
end

/-- The types for which the code follows the ABI.  Excluded are aggregates of at
most 16 bytes with a `long double`, a misaligned member or an eightbyte of
nothing but padding; see the departures in `Props/C37`. -/
structure Regular (t : CTy) : Prop where
  /-- arrays decay -/
  kind : (∃ k a, t = .scalar k a ∧ ∀ n, k = .int n → n = 1 ∨ n = 2 ∨ n = 4 ∨ n = 8) ∨
    ∃ u s a ms, t = .agg u s a ms
  wf : WF t
  pos : 0 < t.size
  align : t.align ≤ 8 ∨ 8 ∣ t.align
  plain : (∃ u s a ms, t = .agg u s a ms) → t.size ≤ 16 →
    (∀ l ∈ leaves t 0, l.1 % naturalAlign l.2 = 0 ∧ l.2 ≠ .ldouble) ∧
    ∀ e, 8 * e < t.size → classOf t e ≠ .none

end Slimcc.SysV
