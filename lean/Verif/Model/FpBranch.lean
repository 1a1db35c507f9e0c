import Verif.Model.FpAssign
import Verif.Spec.FpBranch
/-!
Model of `if` statements whose conditions have floating operands (codegen.c:2074-2090 ND_IF in `gen_stmt`, 1532-1598 `gen_cond`,
2801-2836 `bool_expr_opt`), with optimization, which is the default.

Simplifications: those of Model/FpExpr.lean and Model/FpAssign.lean. Loops are left out.
Conditions are what `cond_cast` returns (parse.c:384-400): relations, `!`, `&&`, `||` and casts to `bool`. Labels are numbers: 1 and 2 are those
inside conversions (`1:`, `2:`), the number `c` of `count()` gives 3c+3 (`.L.else.c`), 3c+4 (`.L.end.c`) and
3c+5 (`.L.short.c`).
-/
set_option autoImplicit false
namespace Slimcc.FP
open Slimcc.Spec Slimcc.Spec.FP Slimcc.X86 Slimcc.Gen

section
variable (Γ : Nat → VTy) (loc : Nat → MemOp) (stk : Nat)

/-- codegen.c:2806-2821: what is below the `!`s, and whether their number is odd. -/
def stripNot (flip : Bool) : FE → Bool × FE
  | .not e => stripNot (!flip) e
  | e => (flip, e)

/-- codegen.c:1532-1598 `gen_cond`: jump to the label if the condition is `jc`. For a cast to `bool` `gen_cond` compares its
operand with zero (1582-1588); the code is that of the cast. -/
def genCond (jc : Bool) (lab : Nat) (c : FE) : FOut :=
  let p := stripNot false c
  let j := jc ^^ p.1
  match foldI Γ p.2 with
  | some z => plain (if z = (if j then 1 else 0) then [.jmp lab] else [])
  | none =>
    let r := genF true Γ loc stk p.2
    { r with code := r.code ++ [.i (.gp (.test 1 (.reg .ax) (.reg .ax))), .jcc (if j then .ne else .e) lab] }

/-- parse.c:2966-2973: the value of a constant condition. -/
def foldC : FC → Option Bool
  | .leaf e => (foldI Γ e).map fun z => decide (z ≠ 0)
  | .not c => (foldC c).map (!·)
  | .and a b => (foldC a).bind fun v => if v then foldC b else some false
  | .or a b => (foldC a).bind fun v => if v then some true else foldC b

/-- Two pieces of code, one after the other. -/
def both (a b : FOut) (l : List FLine) : FOut := ⟨a.code ++ b.code ++ l, max a.fp b.fp, max a.st b.st⟩

/-- codegen.c:1532-1598 `gen_cond` with `&&` and `||` (1565-1580); `!`s turn `jc` around (1535-1539). The next number of
`count()` is the second component. -/
def genC : FC → Bool → Nat → Nat → FOut × Nat
  | .leaf e, jc, lab, c => (genCond Γ loc stk jc lab e, c)
  | .not a, jc, lab, c => genC a (!jc) lab c
  | .and a b, jc, lab, c =>
    match foldC Γ (.and a b) with
    | some v => (plain (if v = jc then [.jmp lab] else []), c)
    | none =>
      if jc = false then
        let p := genC a false lab c
        let q := genC b false lab p.2
        (both p.1 q.1 [], q.2)
      else
        let p := genC a false (3 * c + 5) (c + 1)
        let q := genC b false (3 * c + 5) p.2
        (both p.1 q.1 [.jmp lab, .lab (3 * c + 5)], q.2)
  | .or a b, jc, lab, c =>
    match foldC Γ (.or a b) with
    | some v => (plain (if v = jc then [.jmp lab] else []), c)
    | none =>
      if jc = true then
        let p := genC a true lab c
        let q := genC b true lab p.2
        (both p.1 q.1 [], q.2)
      else
        let p := genC a true (3 * c + 5) (c + 1)
        let q := genC b true (3 * c + 5) p.2
        (both p.1 q.1 [.jmp lab, .lab (3 * c + 5)], q.2)

/-- codegen.c:2074-2090 and 2117-2119, 2131-2134: the code of a statement and the next number of `count()`. -/
def genStm : FStm → Nat → List FLine × Nat
  | .skip, c => ([], c)
  | .assign x e, c => ((genVoid Γ loc stk x e).code, c)
  | .seq a b, c =>
    let p := genStm a c
    let q := genStm b p.2
    (p.1 ++ q.1, q.2)
  | .ifThen e a, c =>
    let k := genC Γ loc stk e false (3 * c + 3) (c + 1)
    let p := genStm a k.2
    (k.1.code ++ p.1 ++ [.lab (3 * c + 3)], p.2)
  | .ifElse e a b, c =>
    let k := genC Γ loc stk e false (3 * c + 3) (c + 1)
    let p := genStm a k.2
    let q := genStm b p.2
    (k.1.code ++ p.1 ++ [.jmp (3 * c + 4), .lab (3 * c + 3)] ++ q.1 ++ [.lab (3 * c + 4)], q.2)

end
end Slimcc.FP
