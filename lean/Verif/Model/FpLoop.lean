import Verif.Model.FpBranch
import Verif.Spec.FpLoop
/-!
Model of loops whose conditions have floating operands (codegen.c:2091-2105 ND_FOR, 2106-2116 ND_DO, 2161-2164 ND_GOTO in `gen_stmt`), with
optimization, and of execution with jumps in both directions.

Simplifications: those of Model/FpBranch.lean. Deferred statements (`gen_defr`), `break` and `continue` with a label are
left out. The labels of `break` and `continue` are unique names that the parser makes (parse.c:2450-2451 `new_unique_name`);
here a loop with number `c` has 3c+3 (`.L.begin.c`), 3c+4 (`break`) and 3c+5 (`continue`). What is first in a `for` is a statement
before the loop; the number is taken before its code (2092) and not after it.
-/
set_option autoImplicit false
namespace Slimcc.FP
open Slimcc.Spec Slimcc.Spec.FP Slimcc.X86 Slimcc.Gen

section
variable (Γ : Nat → VTy) (loc : Nat → MemOp) (stk : Nat)

/-- codegen.c:2070-2119 and 2161-2164 `gen_stmt`: the code of a statement and the next number of `count()`. The first two numbers
are the labels that `break` and `continue` jump to (parse.c:2634-2643). -/
def genL : LStm → Nat → Nat → Nat → List FLine × Nat
  | .skip, _, _, c => ([], c)
  | .brk, kb, _, c => ([.jmp kb], c)
  | .cont, _, kc, c => ([.jmp kc], c)
  | .assign x e, _, _, c => ((genVoid Γ loc stk x e).code, c)
  | .seq a b, kb, kc, c =>
    let p := genL a kb kc c
    let q := genL b kb kc p.2
    (p.1 ++ q.1, q.2)
  | .ifThen e a, kb, kc, c =>
    let k := genC Γ loc stk e false (3 * c + 3) (c + 1)
    let p := genL a kb kc k.2
    (k.1.code ++ p.1 ++ [.lab (3 * c + 3)], p.2)
  | .ifElse e a b, kb, kc, c =>
    let k := genC Γ loc stk e false (3 * c + 3) (c + 1)
    let p := genL a kb kc k.2
    let q := genL b kb kc p.2
    (k.1.code ++ p.1 ++ [.jmp (3 * c + 4), .lab (3 * c + 3)] ++ q.1 ++ [.lab (3 * c + 4)], q.2)
  | .loop e a i, kb, kc, c =>
    let k := genC Γ loc stk e false (3 * c + 4) (c + 1)
    let p := genL a (3 * c + 4) (3 * c + 5) k.2
    let q := genL i kb kc p.2
    ([.lab (3 * c + 3)] ++ k.1.code ++ p.1 ++ [.lab (3 * c + 5)] ++ q.1 ++ [.jmp (3 * c + 3), .lab (3 * c + 4)], q.2)
  | .ever a i, kb, kc, c =>
    let p := genL a (3 * c + 4) (3 * c + 5) (c + 1)
    let q := genL i kb kc p.2
    ([.lab (3 * c + 3)] ++ p.1 ++ [.lab (3 * c + 5)] ++ q.1 ++ [.jmp (3 * c + 3), .lab (3 * c + 4)], q.2)
  | .doWhile a e, _, _, c =>
    let p := genL a (3 * c + 4) (3 * c + 5) (c + 1)
    let k := genC Γ loc stk e true (3 * c + 3) p.2
    ([.lab (3 * c + 3)] ++ p.1 ++ [.lab (3 * c + 5)] ++ k.1.code ++ [.lab (3 * c + 4)], k.2)

end

section
variable (sym : Nat → Word) (prog : List FLine)

/-- Where execution is: the text that follows, the label looked for, the state. -/
abbrev Conf := List FLine × Option Nat × FS

/-- A jump: numeric labels (1 and 2, written `1f`, `2f`) are looked for in the text that follows, named ones in the whole text. -/
def jumpTo (l : List FLine) (n : Nat) (s : FS) : Conf := if n < 3 then (l, some n, s) else (prog, some n, s)

/-- One step of execution. -/
def lstep : Conf → Option Conf
  | ([], _, _) => none
  | (.lab k :: l, some n, s) => if k = n then some (.lab k :: l, none, s) else some (l, some n, s)
  | (_ :: l, some n, s) => some (l, some n, s)
  | (.i i :: l, none, s) => (fexec sym i s).map fun s' => (l, none, s')
  | (.lab _ :: l, none, s) => some (l, none, s)
  | (.jmp n :: l, none, s) => some (jumpTo prog l n s)
  | (.jcc c n :: l, none, s) =>
    match s.g.f with
    | some f => if c.holds f then some (jumpTo prog l n s) else some (l, none, s)
    | none => none

/-- Any number of steps. -/
def Steps : Conf → Conf → Prop := Relation.ReflTransGen fun a b => lstep sym prog a = some b

/-- At least so many steps. -/
def Can : Nat → Conf → Prop
  | 0, _ => True
  | n + 1, a => ∃ b, lstep sym prog a = some b ∧ Can n b

end
end Slimcc.FP
