import Verif.Spec.CStmt
import Verif.Spec.Call
/-!
Programs of several functions that call each other, and what it means that a function, called with
certain values, returns (C23 6.5.3.3, 6.9.2).
-/
set_option autoImplicit false
namespace Slimcc.Spec

/-- A function: its parameters, its other local variables, the type of its result, its body. -/
structure FnDef where
  params : List Nat
  locals : List Nat
  rty : CTy
  body : Stmt

/-- A program: the types of all variables, which of them are global, and the functions. Variables of
different functions have different numbers; a function can be called while it is active and then has
a new set of its local variables. -/
structure Prog where
  Γ : Nat → CTy
  glob : Nat → Bool
  fn : Nat → Option FnDef

/-- The store `σ0` at the beginning of the body, called in the store `σ` with the values `vs`: global
variables are as in the caller, parameters have the values of the arguments, all other variables have
any value of their type. -/
structure FnEnters (P : Prog) (f : FnDef) (vs : List Int) (σ σ0 : Store) : Prop where
  sok : StoreOk P.Γ σ0
  glob : ∀ x, P.glob x = true → σ0 x = σ x
  params : ∀ (i x : Nat) (v : Int), f.params[i]? = some x → vs[i]? = some v → σ0 x = v

/-- Function `g`, called with the values `vs` in the store `σ`, returns the value `v` (`none`: without
one) and leaves the store `σ'`, with calls nested at most `n` deep. It does so whatever its local
variables contain at the beginning. The functions it calls in turn behave as `O` says. -/
def Gives (P : Prog) : Nat → Nat → List Int → Store → Option Int → Store → Prop
  | 0, _, _, _, _, _ => False
  | n + 1, g, vs, σ, v, σ' => ∃ (f : FnDef) (O : Oracle),
      P.fn g = some f ∧ vs.length = f.params.length ∧
      (∀ h ws τ w τ', O h ws τ = some (w, τ') → Gives P n h ws τ w τ') ∧
      (∀ x, P.glob x = false → σ' x = σ x) ∧
      ∀ σ0, FnEnters P f vs σ σ0 → ∃ σ1, Returns O P.Γ f.rty f.body σ0 v σ1 ∧ ∀ x, P.glob x = true → σ' x = σ1 x

/-- The rules for a call: arguments are independent of each other, the function exists and the
arguments are converted to the types of its parameters. Assigning the result to a `bool` is not
modelled. -/
structure CallRules (P : Prog) (c : CallS) : Prop where
  ind : Independent c.args
  fn : ∃ h, P.fn c.fn = some h ∧ c.args.map (·.param) = h.params.map fun x => some (P.Γ x)
  dst : ∀ x, c.dst = some x → P.Γ x ≠ .bool

/-- The rules for a function: expressions are well formed, use variables in scope, and (with
optimization) have no unsequenced assignments; labels are distinct; case ranges are not empty; calls
obey their rules; parameters and local variables are distinct and not global. A local variable of type
`bool` must be a parameter: the bytes it would otherwise start with need not be a `bool`. -/
structure FnRules (P : Prog) (opt : Bool) (f : FnDef) : Prop where
  wf : ∀ e ∈ f.body.exprs, e.Wf
  vars : ∀ e ∈ f.body.exprs, ∀ x ∈ e.vars, P.glob x = true ∨ x ∈ f.params ++ f.locals
  seq : opt = true → ∀ e ∈ f.body.exprs, e.Sequenced
  names : f.body.names.Nodup
  cases : f.body.CasesOk (CallRules P) P.Γ
  distinct : (f.params ++ f.locals).Nodup
  own : ∀ x ∈ f.params ++ f.locals, P.glob x = false
  bools : ∀ x ∈ f.locals, P.Γ x ≠ .bool

end Slimcc.Spec
