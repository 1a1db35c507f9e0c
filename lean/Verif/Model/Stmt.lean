import Verif.Model.Compile
import Verif.Spec.CStmt
/-!
Statements: what the parser makes of labels, cases and jumps (parse.c:2319-2613), and the code for
statements (codegen.c:2067-2219).

Simplifications: no `defer`, no variable-length arrays, no computed `goto`, no `asm`; declarations
are assignments. The parser's tokens are the constructors of `Stmt`; the blocks it builds are
sequences. An error message of the parser is `none`.
-/
set_option autoImplicit false
namespace Slimcc.Gen
open Slimcc.Ty Slimcc.Spec Slimcc.X86

/-- slimcc.h:419-425 `CaseRange` (without `next`: the list is a `List`, the head is the most recent
entry). -/
structure CaseRange where
  label : Option Nat
  lo : Word
  hi : Word
  deriving DecidableEq, Repr

/-- parse.c:260-264 `less_eq`. -/
def lessEq (t : ITy) (a b : Word) : Bool := if t.uns && t.size == 8 then a.ule b else a.sle b

/-- parse.c:2371-2376: the bounds of a case in the type of the controlling expression. -/
def caseBound (t : ITy) (v : Word) : Word :=
  if t.size ≤ 4 then
    if !t.uns then (v.setWidth 32).signExtend 64 else (v.setWidth 32).setWidth 64
  else v

/-- parse.c:2381-2383: a new range has a value in common with an earlier one. -/
def clash (t : ITy) (lo hi : Word) (cr : CaseRange) : Bool :=
  (lessEq t cr.lo lo && lessEq t lo cr.hi) || (lessEq t lo cr.lo && lessEq t cr.lo hi)

/-- parse.c:2389-2399: the positions of the entries that the new range follows (`lo_adj`) and
precedes (`hi_adj`), looking only at the entries with the label `u` at the front. -/
def adjacent (t : ITy) (u : Nat) (lo hi : Word) : List CaseRange → Nat → Option Nat × Option Nat → Option Nat × Option Nat
  | [], _, acc => acc
  | cr :: l, i, acc =>
    match cr.label with
    | none => adjacent t u lo hi l (i + 1) acc
    | some x =>
      if x ≠ u then acc
      else if lessEq t cr.hi lo && cr.hi + 1 == lo then adjacent t u lo hi l (i + 1) (some i, acc.2)
      else if lessEq t hi cr.lo && hi + 1 == cr.lo then adjacent t u lo hi l (i + 1) (acc.1, some i)
      else adjacent t u lo hi l (i + 1) acc

/-- parse.c:2388-2418: entering a range. -/
def enterCase (opt : Bool) (t : ITy) (u : Nat) (lo hi : Word) (cases : List CaseRange) : List CaseRange :=
  match (if opt then adjacent t u lo hi cases 0 (none, none) else (none, none)) with
  | (some i, some j) =>
    match cases[j]? with
    | some cj => (cases.modify i fun cr => { cr with hi := cj.hi }).modify j fun cr => { cr with label := none }
    | none => cases
  | (some i, none) => cases.modify i fun cr => { cr with hi := hi }
  | (none, some j) => cases.modify j fun cr => { cr with lo := lo }
  | (none, none) => ⟨some u, lo, hi⟩ :: cases

/-- parse.c:2363-2419: one `case` label. -/
def addCase (opt : Bool) (t : ITy) (u : Nat) (lo hi : Int) (cases : List CaseRange) : Option (List CaseRange) :=
  let lo := caseBound t (BitVec.ofInt 64 lo)
  let hi := caseBound t (BitVec.ofInt 64 hi)
  if hi ≠ lo && lessEq t hi lo then none
  else if cases.any (clash t lo hi) then none
  else some (enterCase opt t u lo hi cases)

/-- parse.c:103-113 `JumpContext`: an enclosing loop or `switch` (`sw` is the type of the
controlling expression of a `switch`). -/
structure JumpCtx where
  sw : Option ITy
  names : List Nat
  brk : Nat
  cont : Nat

/-- The state of the parser: the counter of `new_unique_name` (parse.c:488-491), the labels of the
function with their unique names (`labels`, the most recent first), and the cases of the `switch`
being parsed. -/
structure PSt where
  id : Nat
  labels : List (List Nat × Nat)
  cases : List CaseRange
  dflt : Option Nat

/-- The statement nodes (slimcc.h:353-417); `goto` keeps the name of its label until the end of the
function. -/
inductive SNode where
  | null
  | expr (e : Expr)
  | call (c : CallS)
  | block (a b : SNode)
  | if_ (c : Expr) (a : SNode)
  | ifElse (c : Expr) (a b : SNode)
  | for_ (init cond inc : Option Expr) (body : SNode) (brk cont : Nat)
  | do_ (body : SNode) (c : Expr) (brk cont : Nat)
  | switch (e : Expr) (cases : List CaseRange) (dflt : Option Nat) (body : SNode) (brk : Nat)
  | jump (u : Nat)
  | goto (n : Nat)
  | label (u : Nat)
  | ret (e : Option Expr)

/-- parse.c:2343-2348: the nearest enclosing `switch`. -/
def activeSwitch : List JumpCtx → Option ITy
  | [] => none
  | c :: l => match c.sw with
    | some t => some t
    | none => activeSwitch l

/-- parse.c:2326-2420: the labels of one statement, whose unique name is `u`. -/
def labelStmt (opt : Bool) (ctx : List JumpCtx) (u : Nat) : List Lbl → PSt → Option PSt
  | [], p => some p
  | .user _ :: l, p => labelStmt opt ctx u l p
  | .dflt :: l, p =>
    match activeSwitch ctx with
    | none => none
    | some _ => if p.dflt.isSome then none else labelStmt opt ctx u l { p with dflt := some u }
  | .case lo hi :: l, p =>
    match activeSwitch ctx with
    | none => none
    | some t =>
      match addCase opt t u lo hi p.cases with
      | none => none
      | some cs => labelStmt opt ctx u l { p with cases := cs }

/-- parse.c:2459-2476 `resolve_labeled_jump`. -/
def resolveJump (isCont : Bool) (n : Option Nat) : List JumpCtx → Option JumpCtx
  | [] => none
  | c :: l =>
    if isCont && c.sw.isSome then resolveJump isCont n l
    else match n with
      | none => some c
      | some x => if c.names.contains x then some c else resolveJump isCont n l

section
variable (opt : Bool) (Γ : Nat → CTy)

/-- parse.c:2492-2613 `stmt`, with `label_stmt` 2319-2431, `secondary_block` 2433-2443, `loop_body`
2445-2457: `names` are the labels in front of the statement. -/
def parseStmt : Stmt → List Nat → List JumpCtx → PSt → Option (SNode × PSt)
  | .skip, _, _, p => some (.null, p)
  | .expr e, _, _, p => some (.expr e, p)
  | .call c, _, _, p => some (.call c, p)
  | .seq a b, _, ctx, p => do
    let (a, p) ← parseStmt a [] ctx p
    let (b, p) ← parseStmt b [] ctx p
    some (.block a b, p)
  | .if_ c a, _, ctx, p => do
    let (a, p) ← parseStmt a [] ctx p
    some (.if_ c a, p)
  | .ifElse c a b, _, ctx, p => do
    let (a, p) ← parseStmt a [] ctx p
    let (b, p) ← parseStmt b [] ctx p
    some (.ifElse c a b, p)
  | .loop i c n b, names, ctx, p => do
    let brk := p.id
    let cont := p.id + 1
    let (b, p) ← parseStmt b [] (⟨none, names, brk, cont⟩ :: ctx) { p with id := p.id + 2 }
    some (.for_ i c n b brk cont, p)
  | .dowhile b c, names, ctx, p => do
    let brk := p.id
    let cont := p.id + 1
    let (b, p) ← parseStmt b [] (⟨none, names, brk, cont⟩ :: ctx) { p with id := p.id + 2 }
    some (.do_ b c brk cont, p)
  | .switch e b, names, ctx, p => do
    let brk := p.id
    let (b, q) ← parseStmt b [] (⟨some (ity (e.ty Γ)), names, brk, 0⟩ :: ctx) ⟨p.id + 1, p.labels, [], none⟩
    some (.switch e q.cases q.dflt b brk, ⟨q.id, q.labels, p.cases, p.dflt⟩)
  | .brk n, _, ctx, p => do
    let c ← resolveJump false n ctx
    some (.jump c.brk, p)
  | .cont n, _, ctx, p => do
    let c ← resolveJump true n ctx
    some (.jump c.cont, p)
  | .lab [] s, _, ctx, p => parseStmt s [] ctx p
  | .lab (x :: ls) s, _, ctx, p => do
    let u := p.id
    let q ← labelStmt opt ctx u (x :: ls) { p with id := p.id + 1 }
    let (s, q) ← parseStmt s (userNames (x :: ls)) ctx { q with labels := (userNames (x :: ls), u) :: q.labels }
    some (.block (.label u) s, q)
  | .goto n, _, _, p => some (.goto n, p)
  | .ret e, _, _, p => some (.ret e, p)

/-- parse.c:4513-4538 `resolve_goto_labels`: the first label in the list with the name. -/
def lookupLabel (labels : List (List Nat × Nat)) (n : Nat) : Option Nat :=
  match labels with
  | [] => none
  | (ns, u) :: l => if ns.contains n then some u else lookupLabel l n

/-- parse.c:4513-4538 `resolve_goto_labels`. -/
def resolve (labels : List (List Nat × Nat)) : SNode → Option SNode
  | .goto n => (lookupLabel labels n).map .jump
  | .block a b => do some (.block (← resolve labels a) (← resolve labels b))
  | .if_ c a => do some (.if_ c (← resolve labels a))
  | .ifElse c a b => do some (.ifElse c (← resolve labels a) (← resolve labels b))
  | .for_ i c n b x y => do some (.for_ i c n (← resolve labels b) x y)
  | .do_ b c x y => do some (.do_ (← resolve labels b) c x y)
  | .switch e cs d b x => do some (.switch e cs d (← resolve labels b) x)
  | s => some s

/-- The parser on a function body; `id` is the state of `new_unique_name`. -/
def parseBody (id : Nat) (s : Stmt) : Option SNode := do
  let (n, p) ← parseStmt opt Γ s [] [] ⟨id, [], [], none⟩
  resolve p.labels n

end

/-- codegen.c:2127-2146: the code for one entry. `hi - lo` is computed in 64 bits; for a signed
8-byte controlling expression it can overflow, which is undefined in the host; the model wraps. -/
def caseCode (sz : Nat) (dflt : Option Nat) (cr : CaseRange) : List Line :=
  match cr.label with
  | none => []
  | some l =>
    if dflt = some l then []
    else if cr.hi = cr.lo then (immCmp sz .ax cr.lo).map .ins ++ [.jcc .e (.name l)]
    else if cr.lo = 0 then (immCmp sz .ax cr.hi).map .ins ++ [.jcc .be (.name l)]
    else (.mov sz (.reg .ax) (.reg .cx) :: (immSub sz .cx cr.lo ++ immCmp sz .cx (cr.hi - cr.lo))).map .ins ++ [.jcc .be (.name l)]

/-- codegen.c:2119-2151: the jumps of a `switch`. -/
def switchCode (sz : Nat) (cases : List CaseRange) (dflt : Option Nat) (brk : Nat) : List Line :=
  cases.flatMap (caseCode sz dflt) ++ (match dflt with | some l => [.jmp (.name l)] | none => []) ++ [.jmp (.name brk)]

/-- For functions without calls. -/
def noCall : CallS → G := fun _ => lines []

section
variable (hs : HostShift) (opt : Bool) (Γ : Nat → CTy) (loc : Nat → MemOp) (stk : Nat)

def optVoid : Option Expr → G
  | none => lines []
  | some e => compileVoid hs opt Γ loc stk e

variable (cc : CallS → G) (rty : CTy) (rtn : Nat)

/-- codegen.c:2067-2219 `gen_stmt`; `cc` is the code of a call (Model/Func). `return e` has its conversion to the return type from
parse.c:2503-2508. -/
def genStmt : SNode → G
  | .null => lines []
  | .expr e => compileVoid hs opt Γ loc stk e
  | .call c => cc c
  | .block a b => genStmt a ;; genStmt b
  | .if_ c a => withLabel fun i =>
    compileCond hs opt Γ loc stk false (.else_ i) c ;; genStmt a ;; lines [.lab (.else_ i)]
  | .ifElse c a b => withLabel fun i =>
    compileCond hs opt Γ loc stk false (.else_ i) c ;; genStmt a ;; lines [.jmp (.end_ i), .lab (.else_ i)] ;;
    genStmt b ;; lines [.lab (.end_ i)]
  | .for_ init cond inc body brk cont => withLabel fun i =>
    optVoid hs opt Γ loc stk init ;; lines [.lab (.begin i)] ;;
    (match cond with | none => lines [] | some c => compileCond hs opt Γ loc stk false (.name brk) c) ;;
    genStmt body ;; lines [.lab (.name cont)] ;; optVoid hs opt Γ loc stk inc ;;
    lines [.jmp (.begin i), .lab (.name brk)]
  | .do_ body c brk cont => withLabel fun i =>
    lines [.lab (.begin i)] ;; genStmt body ;; lines [.lab (.name cont)] ;;
    compileCond hs opt Γ loc stk true (.begin i) c ;; lines [.lab (.name brk)]
  | .switch e cases dflt body brk =>
    compileExpr hs opt Γ loc stk e ;;
    lines (switchCode (if (ity (e.ty Γ)).size = 8 then 8 else 4) cases dflt brk) ;;
    genStmt body ;; lines [.lab (.name brk)]
  | .jump u => lines [.jmp (.name u)]
  | .goto _ => lines []
  | .label u => lines [.lab (.name u)]
  | .ret none => lines [.jmp (.rtn rtn)]
  | .ret (some e) => compileExpr hs opt Γ loc stk (.cast rty e) ;; lines [.jmp (.rtn rtn)]

end

/-- codegen.c:4060, 4153-4166: the body of a function up to the label of the epilogue. Not for
`main`, which also clears %eax at the end of the body. -/
def compileBody (hs : HostShift) (opt : Bool) (Γ : Nat → CTy) (loc : Nat → MemOp) (stk : Nat) (cc : CallS → G) (rty : CTy) (n : SNode) : G :=
  withLabel fun r => genStmt hs opt Γ loc stk cc rty r n ;; lines [.lab (.rtn r)]

/-- A function body from its source to its code; `none` if the parser rejects it. `id` and `c` are
the counters of the parser and the code generator. -/
def compileFn (hs : HostShift) (opt : Bool) (Γ : Nat → CTy) (loc : Nat → MemOp) (stk : Nat) (cc : CallS → G) (rty : CTy) (s : Stmt) (id c : Nat) : Option Out :=
  (parseBody opt Γ id s).map fun n => (compileBody hs opt Γ loc stk cc rty n c).1

end Slimcc.Gen
