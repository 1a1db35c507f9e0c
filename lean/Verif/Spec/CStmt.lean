import Verif.Spec.CExpr
import Verif.Spec.CArgs
/-!
Statements of C and their meaning in the abstract machine (C23 6.8): a small-step machine over
statements, the rest of the function (`Kont`), and the store. A step is undefined (`none`) when an
expression has no defined value or a jump has no target; the final states are `done`.

`for`, `while` and `do` loops, `if`, `switch` with GNU case ranges, `break` and `continue` with the
optional loop names of C2y, `goto`, labels anywhere (a `case` can stand inside a loop inside the
`switch`), `return`, and calls of other functions, which are given by an `Oracle`.
-/
set_option autoImplicit false
namespace Slimcc.Spec

/-- A label before a statement: `name:`, `case lo:` (`lo = hi`) and `case lo ... hi:`, `default:`.
The bounds are the values of the constant expressions. -/
inductive Lbl where
  | user (n : Nat)
  | case (lo hi : Int)
  | dflt
  deriving DecidableEq, Repr

/-- A call `x = f(args);` (`dst = some x`) or `f(args);`. `site` tells the calls in a function's text
apart. -/
structure CallS where
  dst : Option Nat
  fn : Nat
  args : List Actual
  site : Nat
  deriving Repr

/-- What the functions of a program do: the result (if any) and the store after the call, for the
arguments and the store at the call. `none` is undefined, or the function does not return. -/
abbrev Oracle := Nat → List Int → Store → Option (Option Int × Store)

/-- No function can be called. -/
def noFns : Oracle := fun _ _ _ => none

inductive Stmt where
  | skip
  | expr (e : Expr)
  | call (c : CallS)
  | seq (a b : Stmt)
  | if_ (c : Expr) (a : Stmt)
  | ifElse (c : Expr) (a b : Stmt)
  /-- `for (init; cond; inc) body`; `while (cond) body` has no `init` and no `inc`. -/
  | loop (init cond inc : Option Expr) (body : Stmt)
  | dowhile (body : Stmt) (c : Expr)
  | switch (e : Expr) (body : Stmt)
  /-- `break;`, `break name;` -/
  | brk (name : Option Nat)
  /-- `continue;`, `continue name;` -/
  | cont (name : Option Nat)
  /-- All the labels in front of a statement. -/
  | lab (ls : List Lbl) (s : Stmt)
  | goto (n : Nat)
  | ret (e : Option Expr)
  deriving Repr

/-- What is left to do after the current statement; `names` are the labels of the enclosing loop or
`switch`. -/
inductive Kont where
  | stop
  | seq (s : Stmt) (k : Kont)
  | loop (cond inc : Option Expr) (body : Stmt) (names : List Nat) (k : Kont)
  | dowhile (body : Stmt) (c : Expr) (names : List Nat) (k : Kont)
  | switch (names : List Nat) (k : Kont)

/-- `run names s k σ`: about to execute `s`, which has the labels `names`, and then `k`. -/
inductive State where
  | run (names : List Nat) (s : Stmt) (k : Kont) (σ : Store)
  | done (v : Option Int) (σ : Store)

/-- Is the construct with these labels the one a `break` or `continue` means? -/
def named (n : Option Nat) (names : List Nat) : Bool :=
  match n with
  | none => true
  | some x => names.contains x

/-- What is left to do after leaving the innermost (or named) loop or `switch`. -/
def Kont.brk (n : Option Nat) : Kont → Option Kont
  | .stop => none
  | .seq _ k => k.brk n
  | .loop _ _ _ names k | .dowhile _ _ names k | .switch names k => if named n names then some k else k.brk n

/-- What is left to do after the rest of the body of the innermost (or named) loop is skipped. -/
def Kont.cont (n : Option Nat) : Kont → Option Kont
  | .stop => none
  | .seq _ k => k.cont n
  | .switch _ k => k.cont n
  | .loop c i b names k => if named n names then some (.loop c i b names k) else k.cont n
  | .dowhile b c names k => if named n names then some (.dowhile b c names k) else k.cont n

/-- The names among the labels of a statement. -/
def userNames : List Lbl → List Nat
  | [] => []
  | .user n :: l => n :: userNames l
  | _ :: l => userNames l

/-- The first statement with a label that `p` accepts, in the order of the text, together with what
is to be done after it. `inner`: also inside the `switch` statements of `s`. -/
def find (p : Lbl → Bool) (inner : Bool) : Stmt → List Nat → Kont → Option (List Nat × Stmt × Kont)
  | .lab ls s, _, k => if ls.any p then some (userNames ls, s, k) else find p inner s (userNames ls) k
  | .seq a b, _, k => (find p inner a [] (.seq b k)).or (find p inner b [] k)
  | .if_ _ a, _, k => find p inner a [] k
  | .ifElse _ a b, _, k => (find p inner a [] k).or (find p inner b [] k)
  | .loop _ c i b, names, k => find p inner b [] (.loop c i b names k)
  | .dowhile b c, names, k => find p inner b [] (.dowhile b c names k)
  | .switch _ b, names, k => if inner then find p inner b [] (.switch names k) else none
  | _, _, _ => none

/-- Does a `case` label fit the value `v` of the controlling expression, `t` being its promoted
type? The case values are converted to `t` (C23 6.8.5.3p5). -/
def fits (t : CTy) (v : Int) : Lbl → Bool
  | .case lo hi => decide (CTy.conv t lo ≤ v ∧ v ≤ CTy.conv t hi)
  | _ => false

/-- Where a `switch` goes: the statement with a fitting `case` label, else the one with the `default`
label, else past the `switch`. -/
def dispatch (t : CTy) (v : Int) (body : Stmt) (names : List Nat) (k : Kont) : List Nat × Stmt × Kont :=
  match find (fits t v) false body [] (.switch names k) with
  | some x => x
  | none =>
    match find (· == .dflt) false body [] (.switch names k) with
    | some x => x
    | none => ([], .skip, k)

/-- The values of arguments, and the store after their effects. -/
def argsTo (Γ : Nat → CTy) (as : List Actual) (σ : Store) : Option (List Int × Store) :=
  match cevals Γ as σ with
  | .ok r => some r
  | _ => none

/-- The assignment of the result `v` of a call. -/
def CallS.result (c : CallS) (Γ : Nat → CTy) (v : Option Int) (σ : Store) : Option Store :=
  match c.dst, v with
  | none, _ => some σ
  | some x, some v => some (σ.set x (CTy.conv (Γ x) v))
  | some _, none => none

section
variable (O : Oracle) (Γ : Nat → CTy) (rty : CTy) (fn : Stmt)

/-- The value and the new store, if the expression has a defined value. -/
def evalTo (e : Expr) (σ : Store) : Option (Int × Store) :=
  match ceval Γ e σ with
  | .ok r => some r
  | _ => none

/-- An optional expression evaluated for its effects. -/
def effect (e : Option Expr) (σ : Store) : Option Store :=
  match e with
  | none => some σ
  | some e => (evalTo Γ e σ).map (·.2)

/-- One step in a function with body `fn` that returns `rty`. -/
def cstep : State → Option State
  | .done _ _ => none
  | .run _ .skip .stop σ => some (.done none σ)
  | .run _ .skip (.seq s k) σ => some (.run [] s k σ)
  | .run _ .skip (.loop c i b names k) σ => do
    let σ ← effect Γ i σ
    some (.run names (.loop none c i b) k σ)
  | .run _ .skip (.dowhile b c names k) σ => do
    let (v, σ) ← evalTo Γ c σ
    if v ≠ 0 then some (.run names (.dowhile b c) k σ) else some (.run [] .skip k σ)
  | .run _ .skip (.switch _ k) σ => some (.run [] .skip k σ)
  | .run _ (.expr e) k σ => do
    let (_, σ) ← evalTo Γ e σ
    some (.run [] .skip k σ)
  | .run _ (.call c) k σ => do
    let (vs, σ) ← argsTo Γ c.args σ
    let (v, σ) ← O c.fn vs σ
    let σ ← c.result Γ v σ
    some (.run [] .skip k σ)
  | .run _ (.seq a b) k σ => some (.run [] a (.seq b k) σ)
  | .run _ (.if_ c a) k σ => do
    let (v, σ) ← evalTo Γ c σ
    if v ≠ 0 then some (.run [] a k σ) else some (.run [] .skip k σ)
  | .run _ (.ifElse c a b) k σ => do
    let (v, σ) ← evalTo Γ c σ
    if v ≠ 0 then some (.run [] a k σ) else some (.run [] b k σ)
  | .run names (.loop (some e) c i b) k σ => do
    let (_, σ) ← evalTo Γ e σ
    some (.run names (.loop none c i b) k σ)
  | .run names (.loop none none i b) k σ => some (.run [] b (.loop none i b names k) σ)
  | .run names (.loop none (some c) i b) k σ => do
    let (v, σ) ← evalTo Γ c σ
    if v ≠ 0 then some (.run [] b (.loop (some c) i b names k) σ) else some (.run [] .skip k σ)
  | .run names (.dowhile b c) k σ => some (.run [] b (.dowhile b c names k) σ)
  | .run names (.switch e b) k σ => do
    let (v, σ) ← evalTo Γ e σ
    let t := dispatch (e.ty Γ).promote v b names k
    some (.run t.1 t.2.1 t.2.2 σ)
  | .run _ (.brk n) k σ => do
    let k ← k.brk n
    some (.run [] .skip k σ)
  | .run _ (.cont n) k σ => do
    let k ← k.cont n
    some (.run [] .skip k σ)
  | .run _ (.lab ls s) k σ => some (.run (userNames ls) s k σ)
  | .run _ (.goto n) _ σ => do
    let t ← find (· == .user n) true fn [] .stop
    some (.run t.1 t.2.1 t.2.2 σ)
  | .run _ (.ret none) _ σ => some (.done none σ)
  | .run _ (.ret (some e)) _ σ => do
    let (v, σ) ← evalTo Γ e σ
    some (.done (some (CTy.conv rty v)) σ)

/-- `n` steps. -/
def csteps : Nat → State → Option State
  | 0, x => some x
  | n + 1, x => (cstep O Γ rty fn x).bind (csteps n)

/-- The function, started with the store `σ`, returns with `v` (`none` without a value) and `σ'`. -/
def Returns (σ : Store) (v : Option Int) (σ' : Store) : Prop :=
  ∃ n, csteps O Γ rty fn n (.run [] fn .stop σ) = some (.done v σ')

/-- The function runs forever. -/
def Forever (σ : Store) : Prop := ∀ n, ∃ x, csteps O Γ rty fn n (.run [] fn .stop σ) = some x

end

/-- The expressions of a statement. -/
def Stmt.exprs : Stmt → List Expr
  | .skip | .brk _ | .cont _ | .goto _ => []
  | .expr e => [e]
  | .call c => c.args.map (·.e) ++ c.dst.toList.map .var
  | .seq a b => a.exprs ++ b.exprs
  | .if_ c a => c :: a.exprs
  | .ifElse c a b => c :: (a.exprs ++ b.exprs)
  | .loop i c n b => i.toList ++ c.toList ++ n.toList ++ b.exprs
  | .dowhile b c => b.exprs ++ [c]
  | .switch e b => e :: b.exprs
  | .lab _ s => s.exprs
  | .ret e => e.toList

/-- The labels that belong to a `switch` whose body is the statement: those not in an inner
`switch`. -/
def Stmt.labels : Stmt → List Lbl
  | .lab ls s => ls ++ s.labels
  | .seq a b => a.labels ++ b.labels
  | .if_ _ a => a.labels
  | .ifElse _ a b => a.labels ++ b.labels
  | .loop _ _ _ b => b.labels
  | .dowhile b _ => b.labels
  | _ => []

/-- All label names of a function, in the order of the text. C requires them to be distinct. -/
def Stmt.names : Stmt → List Nat
  | .lab ls s => userNames ls ++ s.names
  | .seq a b => a.names ++ b.names
  | .if_ _ a => a.names
  | .ifElse _ a b => a.names ++ b.names
  | .loop _ _ _ b => b.names
  | .dowhile b _ => b.names
  | .switch _ b => b.names
  | _ => []

/-- No case range is empty: in the promoted type `t` of the controlling expression the bounds are in
order. -/
def NonEmpty (t : CTy) (ls : List Lbl) : Prop := ∀ lo hi, .case lo hi ∈ ls → CTy.conv t lo ≤ CTy.conv t hi

/-- The case ranges of every `switch` are not empty, and every call satisfies `K`. -/
def Stmt.CasesOk (K : CallS → Prop) (Γ : Nat → CTy) : Stmt → Prop
  | .call c => K c
  | .seq a b => a.CasesOk K Γ ∧ b.CasesOk K Γ
  | .if_ _ a => a.CasesOk K Γ
  | .ifElse _ a b => a.CasesOk K Γ ∧ b.CasesOk K Γ
  | .loop _ _ _ b => b.CasesOk K Γ
  | .dowhile b _ => b.CasesOk K Γ
  | .switch e b => NonEmpty (e.ty Γ).promote b.labels ∧ b.CasesOk K Γ
  | .lab _ s => s.CasesOk K Γ
  | _ => True

end Slimcc.Spec
