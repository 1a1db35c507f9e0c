import Verif.Model.Basic
import Verif.Spec.Defer
/-!
Deferred statements: the chain of pending ones that the parser keeps (parse.c:210-229, 512-521,
1445-1459, 2319-2613, 2660-2710, 4513-4538) and the code that runs them (codegen.c:278-280,
1328-1363, 2067-2219).

Simplifications: expressions are actions with a number; no variable-length arrays (`DF_VLA_DEALLOC`)
and no statement expressions; `break` and `continue` say which loop they mean (`resolve_labeled_jump`,
C23 and C50 are about that); the code of an `if` always has an `else` part.
-/
set_option autoImplicit false
namespace Slimcc.Dfr
open Slimcc.Spec

mutual
/-- Statement nodes (slimcc.h:353-417). `absent` is no node at all: a declaration without an
initializer adds none. `defr_start` and `defr_end` are chains. -/
inductive N where
  | absent
  | null
  | act (n : Nat)
  | seq (a b : N)
  | block (body : N) (ds de : Chain)
  | ite (c : Nat) (a b : N)
  | for_ (c inc : Nat) (body : N) (brk cont : Nat) (ds de : Chain)
  | do_ (body : N) (c : Nat) (brk cont : Nat)
  | goto (l : Nat) (ds de : Chain)
  | ugoto (l : Nat) (ds : Chain)
  | label (u : Nat)
  | sw (body : N) (brk : Nat)
  | ret (ds : Chain)

/-- slimcc.h `DeferStmt` with the ones it is linked to: nothing is changed after it was made.
`id` is its address. -/
inductive Chain where
  | nil
  | cons (id : Nat) (n : N) (next : Chain)
end

/-- The address of the first one (`none` is the null pointer). -/
def Chain.head : Chain → Option Nat
  | .nil => none
  | .cons id _ _ => some id

/-- The parser: `current_defr`, the next address, the number of the next unique name, and the lists
`labels` (name, unique name and `defr_start`) and `gotos` (name and `defr_start`), the latest
first. -/
structure PSt where
  defr : Chain
  nid : Nat
  nlab : Nat
  labels : List (Nat × Nat × Chain)
  gotos : List (Nat × Chain)

/-- parse.c:103-113 `JumpContext`; `isSw` stands for `switch_node`. -/
structure JCtx where
  brk : Nat
  cont : Nat
  dend : Chain
  isSw : Bool

/-- parse.c:512-521 `new_defr`, with what is stored right after it (parse.c:1457-1458, 2649). -/
def newDefr (n : N) (p : PSt) : PSt := { p with defr := .cons p.nid n p.defr, nid := p.nid + 1 }

/-- The variables with `cleanup` of a header (parse.c:1544-1545, 1577-1605). -/
def newDefrs : List Nat → PSt → PSt
  | [], p => p
  | n :: l, p => newDefrs l (newDefr (.act n) p)

/-- Whether a node is a `return`, `goto`, `break` or `continue` (`ND_RETURN`, `ND_GOTO`). -/
def isJump : N → Bool
  | .ret _ => true
  | .goto _ _ _ => true
  | .ugoto _ _ => true
  | _ => false

/-- The last node of a list, if there is any. -/
def lastNode : N → Option N
  | .absent => none
  | .seq a b => match lastNode b with
    | some n => some n
    | none => lastNode a
  | n => some n

/-- The first node of a list, if there is any. -/
def firstNode : N → Option N
  | .absent => none
  | .seq a b => match firstNode a with
    | some n => some n
    | none => firstNode b
  | n => some n

/-- Whether the first node has a next one (`stmt_node->next`). -/
def hasNext : N → Bool
  | .seq _ _ => true
  | _ => false

/-- Whether a node that may be missing is a jump. -/
def isJump? : Option N → Bool
  | some n => isJump n
  | none => false

/-- parse.c:2702-2707: the end of `compound_stmt`; `e` is `defr_end`. -/
def leaveCompound (e : Chain) (body : N) (p : PSt) : N × PSt :=
  if isJump? (lastNode body) then (.block body e e, { p with defr := e })
  else (.block body p.defr e, { p with defr := e })

/-- parse.c:215-229 `leave_block_scope`. -/
def leaveBlockScope (d : Chain) (n : N) (p : PSt) : N × PSt :=
  if isJump? (firstNode n) then
    if hasNext n then (.block n d d, { p with defr := d }) else (n, { p with defr := d })
  else if p.defr.head = d.head && !hasNext n then (n, p)
  else (.block n p.defr d, { p with defr := d })

/-- parse.c:2478-2490: the `k`-th context from inside; `continue` must be in a loop. -/
def jumpTo (ctx : List JCtx) (k : Nat) (isCont : Bool) (p : PSt) : Option (N × PSt) :=
  match ctx[k]? with
  | none => none
  | some j =>
    if isCont then
      if j.isSw then none else some (.goto j.cont p.defr j.dend, p)
    else some (.goto j.brk p.defr j.dend, p)

/-- parse.c:2433-2443 `secondary_block`, given the function for a statement. -/
def secondary (stmt : PSt → Option (N × PSt)) (isBlock : Bool) (p : PSt) : Option (N × PSt) :=
  if isBlock then stmt p
  else match stmt p with
    | none => none
    | some (n, q) => some (leaveBlockScope p.defr n q)

def isBlock : DStmt → Bool
  | .block _ => true
  | _ => false

/-- parse.c:2349-2350: the check at a `case` or `default`. -/
def caseOk (ctx : List JCtx) (p : PSt) : Bool :=
  ctx.any (·.isSw) && (match ctx with
    | j :: _ => j.dend.head == p.defr.head
    | [] => false)

/-- parse.c:2492-2613 `stmt`, with `compound_stmt` 2660-2710 and `label_stmt` 2319-2431. `none` is
an error message. A `switch` here has no declarations in its header. -/
def stmt : DStmt → List JCtx → PSt → Option (N × PSt)
  | .skip, _, p => some (.null, p)
  | .act n, _, p => some (.act n, p)
  | .seq a b, ctx, p =>
    match stmt a ctx p with
    | none => none
    | some (na, p) =>
      match stmt b ctx p with
      | none => none
      | some (nb, p) => some (.seq na nb, p)
  | .defer b, ctx, p =>
    match secondary (stmt b ctx) (isBlock b) p with
    | none => none
    | some (n, p) => some (.null, newDefr n p)
  | .cleanup n, _, p => some (.absent, newDefr (.act n) p)
  | .block b, ctx, p =>
    match stmt b ctx p with
    | none => none
    | some (n, q) => some (leaveCompound p.defr n q)
  | .ite pre c a b, ctx, p =>
    match secondary (stmt a ctx) (isBlock a) (newDefrs pre p) with
    | none => none
    | some (na, q) =>
      match secondary (stmt b ctx) (isBlock b) q with
      | none => none
      | some (nb, q) => some (leaveBlockScope p.defr (.ite c na nb) q)
  | .loop init pre c inc body, ctx, p =>
    let p1 := newDefrs init p
    let p2 := newDefrs pre p1
    match secondary (stmt body (⟨p2.nlab, p2.nlab + 1, p2.defr, false⟩ :: ctx)) (isBlock body) { p2 with nlab := p2.nlab + 2 } with
    | none => none
    | some (n, q) => some (leaveBlockScope p.defr (.for_ c inc n p2.nlab (p2.nlab + 1) p2.defr p1.defr) q)
  | .doWhile body c, ctx, p =>
    match secondary (stmt body (⟨p.nlab, p.nlab + 1, p.defr, false⟩ :: ctx)) (isBlock body) { p with nlab := p.nlab + 2 } with
    | none => none
    | some (n, q) => some (.do_ n c p.nlab (p.nlab + 1), q)
  | .brk k, ctx, p => jumpTo ctx k false p
  | .cont k, ctx, p => jumpTo ctx k true p
  | .ret, _, p => some (.ret p.defr, p)
  | .label l, _, p => some (.label p.nlab, { p with nlab := p.nlab + 1, labels := (l, p.nlab, p.defr) :: p.labels })
  | .goto l, _, p => some (.ugoto l p.defr, { p with gotos := (l, p.defr) :: p.gotos })
  | .sw body, ctx, p =>
    match secondary (stmt body (⟨p.nlab, 0, p.defr, true⟩ :: ctx)) (isBlock body) { p with nlab := p.nlab + 1 } with
    | none => none
    | some (n, q) => some (.sw n p.nlab, q)
  | .case, ctx, p => if caseOk ctx p then some (.null, p) else none

/-! ### `goto` -/

/-- parse.c:4516-4519: the label of a name. -/
def findLabel (ls : List (Nat × Nat × Chain)) (l : Nat) : Option (Nat × Chain) := (ls.find? (fun x => x.1 == l)).map (·.2)

/-- parse.c:4528-4531: whether the address is on the chain. -/
def onChain (id : Option Nat) : Chain → Bool
  | .nil => false
  | .cons i n next => some i == id || onChain id next

/-- parse.c:4513-4538 `resolve_goto_labels` for one `goto`: the unique name and `defr_end`. -/
def resolveGoto (ls : List (Nat × Nat × Chain)) (g : Nat × Chain) : Option (Nat × Chain) :=
  match findLabel ls g.1 with
  | none => none
  | some (u, dest) =>
    if dest.head = none then some (u, .nil)
    else if onChain dest.head g.2 then some (u, dest) else none

/-! ### The code -/

/-- Labels in the assembly: unique names of the parser, numbers of `count()`, and the end of the
function. -/
inductive L where
  | name (n : Nat)
  | begin (n : Nat)
  | els (n : Nat)
  | fin (n : Nat)
  | rtn
  deriving DecidableEq, Repr

/-- Instructions: an action, a label, a jump, and a jump on the value `b` of a condition. -/
inductive I where
  | act (n : Nat)
  | lbl (l : L)
  | jmp (l : L)
  | br (c : Nat) (b : Bool) (l : L)
  deriving DecidableEq, Repr

section
variable (ls : List (Nat × Nat × Chain))

mutual
/-- codegen.c:2067-2219 `gen_stmt`; the number is that of `count()`. `jmp` to a label that is not
there stands for a `goto` that was refused. -/
def gen : N → Nat → List I × Nat
  | .absent, c => ([], c)
  | .null, c => ([], c)
  | .act n, c => ([.act n], c)
  | .seq a b, c => ((gen a c).1 ++ (gen b (gen a c).2).1, (gen b (gen a c).2).2)
  | .block n ds de, c => ((gen n c).1 ++ (genDefr ds de.head (gen n c).2).1, (genDefr ds de.head (gen n c).2).2)
  | .ite k a b, c =>
    (.br k false (.els c) :: ((gen a (c + 1)).1 ++ .jmp (.fin c) :: .lbl (.els c) :: ((gen b (gen a (c + 1)).2).1 ++ [.lbl (.fin c)])),
      (gen b (gen a (c + 1)).2).2)
  | .for_ k inc n brk cont ds de, c =>
    (.lbl (.begin c) :: .br k false (.name brk) :: ((gen n (c + 1)).1 ++ .lbl (.name cont) :: .act inc ::
      ((genDefr ds de.head (gen n (c + 1)).2).1 ++ [.jmp (.begin c), .lbl (.name brk)])), (genDefr ds de.head (gen n (c + 1)).2).2)
  | .do_ n k brk cont, c =>
    (.lbl (.begin c) :: ((gen n (c + 1)).1 ++ [.lbl (.name cont), .br k true (.begin c), .lbl (.name brk)]), (gen n (c + 1)).2)
  | .goto l ds de, c => ((genDefr ds de.head c).1 ++ [.jmp (.name l)], (genDefr ds de.head c).2)
  | .ugoto l ds, c =>
    match resolveGoto ls (l, ds) with
    | none => ([], c)
    | some (u, de) => ((genDefr ds de.head c).1 ++ [.jmp (.name u)], (genDefr ds de.head c).2)
  | .label u, c => ([.lbl (.name u)], c)
  | .sw n brk, c => ((gen n c).1 ++ [.lbl (.name brk)], (gen n c).2)
  | .ret ds, c => ((genDefr ds none c).1 ++ [.jmp .rtn], (genDefr ds none c).2)

/-- codegen.c:1328-1363 `gen_defr` (running past the end of the chain would be a null pointer). -/
def genDefr : Chain → Option Nat → Nat → List I × Nat
  | .nil, _, c => ([], c)
  | .cons id n next, e, c =>
    if some id = e then ([], c)
    else ((gen n c).1 ++ (genDefr next e (gen n c).2).1, (genDefr next e (gen n c).2).2)
end
end

/-- parse.c:4590-4621 `func_definition`: the body is a block; parse.c:4513-4538: every `goto` has a
label that it may jump to; codegen.c:4039-4177: the label of the end. -/
def function (body : DStmt) : Option (List I) :=
  match stmt (.block body) [] ⟨.nil, 0, 0, [], []⟩ with
  | none => none
  | some (n, p) =>
    if p.gotos.all (fun g => (resolveGoto p.labels g).isSome) then some ((gen p.labels n 0).1 ++ [.lbl .rtn]) else none

/-! ### Running the code -/

/-- Where a label is. -/
def posOf (l : L) : List I → Option Nat
  | [] => none
  | i :: is => if i = .lbl l then some 0 else (posOf l is).map (· + 1)

/-- The labels that are defined. -/
def defined : List I → List L
  | [] => []
  | .lbl l :: is => l :: defined is
  | _ :: is => defined is

/-- The assembler takes the code: no label is defined twice. -/
def Assembles (is : List I) : Prop := (defined is).Nodup

/-- One instruction: what is seen, and where it goes on. -/
inductive Step (is : List I) : Nat → List DEv → Nat → Prop
  | act {pc n : Nat} : is[pc]? = some (.act n) → Step is pc [.act n] (pc + 1)
  | lbl {pc : Nat} {l : L} : is[pc]? = some (.lbl l) → Step is pc [] (pc + 1)
  | jmp {pc q : Nat} {l : L} : is[pc]? = some (.jmp l) → posOf l is = some q → Step is pc [] q
  | taken {pc q c : Nat} {b : Bool} {l : L} : is[pc]? = some (.br c b l) → posOf l is = some q → Step is pc [.cond c b] q
  | not {pc c : Nat} {b : Bool} {l : L} : is[pc]? = some (.br c b l) → Step is pc [.cond c (!b)] (pc + 1)

/-- Any number of instructions. -/
inductive Steps (is : List I) : Nat → List DEv → Nat → Prop
  | refl {pc : Nat} : Steps is pc [] pc
  | step {pc q r : Nat} {t t' : List DEv} : Step is pc t q → Steps is q t' r → Steps is pc (t ++ t') r

end Slimcc.Dfr
