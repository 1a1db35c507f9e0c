import Verif.Model.Compile
import Verif.Spec.Atomic
/-!
Code for operations on atomic objects, and a machine of several threads that runs it.

An atomic object is a global variable `sym(%rip)` in position-independent code. The parser turns an
operation on it into ordinary nodes over hidden variables (parse.c:3191-3329); here the code of
those nodes is composed from the code generator of Model/Gen, which generates everything except the
accesses to the object itself.

Simplifications: objects are integers (not pointers, floating point, `_BitInt`); the statements are
those of `Atomic.Stmt`; a load `r = g;` is to a variable not wider than the object. The memory of
the machine is split: what a thread accesses with ordinary instructions is its own, and the atomic
objects are shared. Threads interleave instruction by instruction and an instruction on shared memory
is one step: this is the order that x86 gives to locked instructions and to loads (Intel SDM vol. 3
10.2), and the generated code has no unlocked store to an atomic object.
-/
set_option autoImplicit false
namespace Slimcc.Gen
open Slimcc.Ty Slimcc.Spec Slimcc.X86

section
variable (hs : HostShift) (opt : Bool) (O Γ : Nat → CTy) (loc : Nat → MemOp) (stk : Nat)

/-- codegen.c:2865-2959, 1627-2060: assignment of the value of `rhs` to a variable `x` of type `t`,
when no shorter form applies (codegen.c:2294-2334). -/
def setVar (viaReg : Bool) (t : ITy) (x : Nat) (rhs : G) : G :=
  if viaReg then rhs ;; inss [.mov t.size (.reg .ax) (.mem (loc x))]
  else inss [.lea (loc x) .ax] ;;
    tmp (pushIns stk true .ax) rhs
      (fun l => popIn stk true l ++ [.mov t.size (.reg .ax) (.mem (.ind (popReg l)))])

/-- codegen.c:1786-1817 `ND_CAS` on `addr`, `&old`, `new` (the places of the two temporaries are
%rdi and %rsi because loading `new` needs none). -/
def casCode (t : ITy) (addr old new : Nat) : G :=
  compileExpr hs opt Γ loc stk (.var addr) ;;
  tmp (pushIns stk true .ax)
    (inss [.lea (loc old) .ax] ;; tmp (pushIns stk true .ax) (compileExpr hs opt Γ loc stk (.var new)) (popIn stk true))
    (popIn stk true) ;;
  lines [.ins (.mov t.size (.reg .ax) (.reg .dx)), .ins (.mov t.size (.mem (.ind (.tmp 0))) (.reg .ax)),
    .cmpxchg t.size .dx (.tmp 1), .ins (.set .e .cx), .jeOver,
    .ins (.mov t.size (.reg .ax) (.mem (.ind (.tmp 0)))), .ins (.movx false 1 4 (.reg .cx) .ax)]

/-- parse.c:3191-3253 `atomic_op`, generated by codegen.c:1701-1712 (`ND_STMT_EXPR`), 2107-2117
(`ND_DO`) and 1532-1597 (`gen_cond` of the negated `ND_CAS`): the value is in %rax at the end. `h` has
the hidden variables: 0 `addr`, 1 `val`, 2 `old`, 3 `new`. Assignments to `old` and `new`, whose type
is atomic, take the long form (codegen.c:226-267, 2294-2334: `let_atomic` is false). -/
def rmwCode (cont brk : Nat) (h : Nat → Nat) (post : Bool) (g : Nat) (op : BinOp) (e : Expr) : G :=
  let t := ity (O g)
  setVar loc stk opt (ity .ulong) (h 0) (inss [.lea (.sym g) .ax]) ;;
  compileVoid hs opt Γ loc stk (.assign (h 1) e) ;;
  setVar loc stk false t (h 2) (compileExpr hs opt Γ loc stk (.var (h 0)) ;; lines [.shared (loadExt t (.ind .ax) .ax)]) ;;
  withLabel fun b =>
    lines [.lab (.begin b)] ;;
    setVar loc stk false t (h 3) (compileExpr hs opt Γ loc stk (.cast (O g) (.bin op (.var (h 2)) (.var (h 1))))) ;;
    lines [.lab (.name cont)] ;;
    casCode hs opt Γ loc stk t (h 0) (h 2) (h 3) ;;
    lines ((if opt then [] else [.ins (.alu .xor 1 (.imm 1) (.reg .ax))]) ++
      [.ins (.test 1 (.reg .ax) (.reg .ax)), .jcc (if opt then .e else .ne) (.begin b), .lab (.name brk)]) ;;
    compileExpr hs opt Γ loc stk (.var (h (if post then 2 else 3)))

/-- A statement. `k` is its number, `n` the number of statements: the names made by the parser
(`new_unique_name`) are above it. -/
def atomicStmt (n k : Nat) (h : Nat → Nat) : Atomic.Stmt → G
  | .run e => compileVoid hs opt Γ loc stk e
  | .branch e j => compileCond hs opt Γ loc stk true (.name j) e
  -- codegen.c:2304-2311, 566-569: the low bytes of the object are copied
  | .load r g => lines [.shared (.mov (ity (Γ r)).size (.mem (.sym g)) (.reg .dx)),
      .ins (.mov (ity (Γ r)).size (.reg .dx) (.mem (loc r)))]
  -- parse.c:3275-3287: `tmp = e, exchange(&g, tmp)`; codegen.c:1818-1827 `ND_EXCH`
  | .store g e =>
    compileVoid hs opt Γ loc stk (.assign (h 0) e) ;;
    inss [.lea (.sym g) .ax] ;;
    tmp (pushIns stk true .ax) (compileExpr hs opt Γ loc stk (.var (h 0))) (popIn stk true) ;;
    lines [.xchgm (ity (O g)).size .ax (.tmp 0)]
  | .rmw none post g op e => rmwCode hs opt O Γ loc stk (n + 1 + 2 * k) (n + 2 + 2 * k) h post g op e
  | .rmw (some r) post g op e =>
    setVar loc stk opt (ity (Γ r)) r
      (rmwCode hs opt O Γ loc stk (n + 1 + 2 * k) (n + 2 + 2 * k) h post g op e ;; inss (castIns (ity (O g)) (ity (Γ r))))

/-- The statements from number `k` on, each with its label; `hid` has the hidden variables of each
statement. -/
def atomicFrom (n : Nat) (hid : Nat → Nat → Nat) : Nat → List Atomic.Stmt → G
  | k, [] => lines [.lab (.name k)]
  | k, s :: l => lines [.lab (.name k)] ;; atomicStmt hs opt O Γ loc stk n k (hid k) s ;; atomicFrom n hid (k + 1) l

/-- The code of a thread. -/
def atomicCode (hid : Nat → Nat → Nat) (p : List Atomic.Stmt) : G :=
  atomicFrom hs opt O Γ loc stk p.length hid 0 p

end
end Slimcc.Gen

namespace Slimcc.X86

/-- The machine: the shared memory, and each thread's position and registers with its own memory. -/
structure MSt where
  sh : Word → BitVec 8
  th : Nat → Nat × St

section
variable (sym : Nat → Word)

/-- One instruction of a thread (Intel SDM vol. 2, CMPXCHG and XCHG). -/
def tstep (P : List Line) (sh : Word → BitVec 8) (c : Nat × St) : Option ((Word → BitVec 8) × Nat × St) :=
  match P[c.1]? with
  | some (.shared i) =>
    (exec sym i { c.2 with m := sh }).map fun s => (s.m, c.1 + 1, { s with m := c.2.m })
  | some (.cmpxchg sz src a) =>
    let old := rd sh (c.2.r a) sz
    let fl := some (cmpFlags sz (c.2.r .ax) old)
    if zx sz (c.2.r .ax) = old then
      some (wr sh (c.2.r a) sz (c.2.r src), c.1 + 1, { c.2 with f := fl })
    else
      some (sh, c.1 + 1, { c.2.setR .ax (put sz (c.2.r .ax) old) with f := fl })
  | some (.xchgm sz src a) =>
    some (wr sh (c.2.r a) sz (c.2.r src), c.1 + 1, c.2.setR src (put sz (c.2.r src) (rd sh (c.2.r a) sz)))
  | _ => (step sym P c).map fun c' => (sh, c')

/-- One instruction of thread `i`; a thread past its end does nothing, `none` is a fault. -/
def mstep (P : Nat → List Line) (i : Nat) (g : MSt) : Option MSt :=
  if (P i).length ≤ (g.th i).1 then some g
  else (tstep sym (P i) g.sh (g.th i)).map fun (sh, c) => ⟨sh, fun j => if j = i then c else g.th j⟩

/-- The threads run in the given order, one instruction at a time. -/
def mrun (P : Nat → List Line) : List Nat → MSt → Option MSt
  | [], g => some g
  | i :: l, g => (mstep sym P i g).bind (mrun P l)

end
end Slimcc.X86
