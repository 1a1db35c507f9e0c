import Verif.Model.Atomic
/-!
A thread's code in memory: what the proofs about it take for granted. These are the conditions of
Spec/Compiled for each thread, plus those for the hidden variables that the parser makes and
`Stmt.Fine`.
-/
set_option autoImplicit false
namespace Slimcc.Atomic
open Slimcc.Spec Slimcc.Ty Slimcc.X86 Slimcc.Gen

/-- A thread: its activation, the options of the compiler, the types of the atomic objects and which
there are, the hidden variables (of each statement), its statements, the next number for labels. -/
structure Thr where
  E : Env
  hs : HostShift
  opt : Bool
  O : Nat → CTy
  objs : Nat → Prop
  hid : Nat → Nat → Nat
  code : List Stmt
  c : Nat

namespace Thr
variable (T : Thr)

/-- Its code. -/
def gen : Out := (atomicCode T.hs T.opt T.O T.E.Γ T.E.loc T.E.stk T.hid T.code T.c).1

/-- The variable is not one in the program. -/
def Hidden (x : Nat) : Prop := ∃ k j, j < 4 ∧ x = T.hid k j

/-- Conditions on statement number `k`. -/
structure StmtOk (k : Nat) (s : Stmt) : Prop where
  wf : ∀ e, s.expr = some e → e.Wf
  seq : ∀ e, s.expr = some e → T.opt = true → e.Sequenced
  vars : ∀ x ∈ s.vars, T.E.dom x ∧ ¬ T.Hidden x
  objs : ∀ g ∈ s.objs, T.objs g
  fine : s.Fine T.O T.E.Γ
  /-- Jumps are to statements, or to the end. -/
  target : ∀ e j, s = .branch e j → j ≤ T.code.length
  /-- The hidden variable of `g = e` has the type of `e`. -/
  tmp : ∀ g e, s = .store g e → T.E.dom (T.hid k 0) ∧ T.E.Γ (T.hid k 0) = e.ty T.E.Γ
  /-- Those of `g op= e`: the address, the value of `e`, the old and the new value. -/
  rmw : ∀ r post g op e, s = .rmw r post g op e →
    (∀ i, i < 4 → T.E.dom (T.hid k i)) ∧ (∀ i j, i < 4 → j < 4 → T.hid k i = T.hid k j → i = j) ∧
    T.E.Γ (T.hid k 0) = .ulong ∧ T.E.Γ (T.hid k 1) = e.ty T.E.Γ ∧ T.E.Γ (T.hid k 2) = T.O g ∧ T.E.Γ (T.hid k 3) = T.O g
  /-- Without optimization the code for `_Bool` is not modelled. -/
  plain : ∀ r post g op e, s = .rmw r post g op e → T.opt = false → T.O g ≠ .bool

structure Ok : Prop where
  env : T.E.Ok
  room : T.gen.st ≤ T.E.K
  stmts : ∀ k s, T.code[k]? = some s → T.StmtOk k s

end Thr

/-- The atomic objects as the variables of an environment. -/
def objEnv (O : Nat → CTy) (objs : Nat → Prop) (sym : Nat → Word) : Env :=
  { Γ := O, dom := objs, loc := .sym, stk := 0, K := 0, sym := sym, bp := 0 }

/-- A translated program: the options of the compiler, the objects with their types and addresses, and
for each thread its activation, hidden variables, statements and first label number. -/
structure Comp where
  hs : HostShift
  opt : Bool
  O : Nat → CTy
  objs : Nat → Prop
  sym : Nat → Word
  E : Nat → Env
  hid : Nat → Nat → Nat → Nat
  code : Nat → List Stmt
  c : Nat → Nat

namespace Comp
variable (C : Comp)

/-- One of its threads. -/
def thr (i : Nat) : Thr := ⟨C.E i, C.hs, C.opt, C.O, C.objs, C.hid i, C.code i, C.c i⟩

/-- The code of a thread. -/
def P (i : Nat) : List Line := (C.thr i).gen.code

/-- The program it is the translation of. -/
def prog : Prog := ⟨C.O, fun i => (C.E i).Γ, C.code⟩

/-- The conditions on each thread; all threads see the same objects, and these do not overlap. -/
structure Ok : Prop where
  thr : ∀ i, (C.thr i).Ok
  sym : ∀ i, (C.E i).sym = C.sym
  objs : ∀ g g', C.objs g → C.objs g' → g ≠ g' → Disj (C.sym g) (C.O g).bytes (C.sym g') (C.O g').bytes

/-- The shared memory holds the values of the objects, in little-endian two's complement. -/
def Holds (A : Store) (sh : Word → BitVec 8) : Prop :=
  ∀ g, C.objs g → ∀ i, i < (C.O g).bytes → sh (C.sym g + BitVec.ofNat 64 i) = (BitVec.ofInt 64 (A g) >>> (8 * i)).setWidth 8

/-- A thread has run to the end of its code. -/
def Done (i : Nat) (g : MSt) : Prop := (C.P i).length ≤ (g.th i).1

/-- A start: every thread is at its first statement and first instruction, and memory holds the values
of the objects and of all variables. -/
structure Start (S : State) (g : MSt) : Prop where
  ok : C.prog.StateOk S
  objs : C.Holds S.A g.sh
  pc : ∀ i, (S.th i).1 = 0 ∧ (g.th i).1 = 0
  bp : ∀ i, (g.th i).2.r .bp = (C.E i).bp
  vars : ∀ i, Rel (C.E i) (S.th i).2 (g.th i).2.m

/-- What can be seen of the program's state in the machine: the objects at all times; and when a thread
has run to its end, it is at the end of its statements and its memory holds its variables. -/
structure Shows (S : State) (g : MSt) : Prop where
  objs : C.Holds S.A g.sh
  done : ∀ i, C.Done i g → (S.th i).1 = (C.code i).length ∧
    ∀ x, (C.E i).dom x → ¬ (C.thr i).Hidden x → ∀ j, j < (C.E i).size x →
      (g.th i).2.m ((C.E i).addr x + BitVec.ofNat 64 j) = (BitVec.ofInt 64 ((S.th i).2 x) >>> (8 * j)).setWidth 8

end Comp

/-- Every order of the statements ends: no thread can go on forever. -/
inductive Prog.Ends (p : Prog) : State → Prop
  | intro (S : State) (h : ∀ i S', (S.th i).1 < (p.code i).length → p.step i S = .ok S' → Ends p S') : Ends p S

end Slimcc.Atomic
