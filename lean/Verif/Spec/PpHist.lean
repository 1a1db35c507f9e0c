import Verif.Spec.Pp
/-!
Histories of definitions and uses of names. The last definition of a name before a use is the one that counts.
-/
set_option autoImplicit false
namespace Slimcc.Spec
open Slimcc.PP Slimcc.Mac

/-- The operations on names, the first one first: a definition, or (`none`) the end of one. -/
abbrev Ops := List (Name × Option Macro)

/-- What a `#define` or `#undef` line does. -/
inductive OpLine (l : Line) : Name → Option Macro → Prop where
  | define (n : Name) (m : Macro) : l.Is ["define"] → Defines l.args n m → OpLine l n (some m)
  | undef (t : PTok) (ex : List PTok) : l.Is ["undef"] → l.args = t :: ex → t.kind = .ident → OpLine l t.text none

/-- What a name stands for after the operations: what the last one on it says; without one, what it stood for at first. -/
def Means (σ : Name → Option Macro) (ops : Ops) (n : Name) (v : Option Macro) : Prop :=
  (∃ before after, ops = before ++ (n, v) :: after ∧ ∀ p ∈ after, p.1 ≠ n) ∨ ((∀ p ∈ ops, p.1 ≠ n) ∧ v = σ n)

/-- A `#define` or `#undef` line, a text, or a group with two texts. -/
inductive Step where
  | op (l : Line)
  | text (ts : List PTok)
  | ifdef (l : Line) (a : List PTok) (e : Line) (b : List PTok) (last : Line)

def stepLines : List Step → Items
  | [] => .nil
  | .op l :: r => .dir l (stepLines r)
  | .text ts :: r => .text ts (stepLines r)
  | .ifdef l a e b last :: r => .group l (.text a .nil) (.els e (.text b .nil) last) (stepLines r)

/-- The steps, after the operations, yield the tokens; every use is expanded with what the names stand for there. -/
inductive Uses (L : Lang) (σ : Name → Option Macro) : Ops → List Step → List PTok → Prop where
  | nil (ops : Ops) : Uses L σ ops [] []
  | op (ops : Ops) (l : Line) (n : Name) (v : Option Macro) (r : List Step) (o : List PTok) : OpLine l n v →
      (l.args.length = 1 → (stepLines r).startsParen = false) → Uses L σ (ops ++ [(n, v)]) r o → Uses L σ ops (.op l :: r) o
  | text (ops : Ops) (ts : List PTok) (table : Name → Option Macro) (r : List Step) (o o2 : List PTok) : (∀ n, Means σ ops n (table n)) →
      (∀ t ∈ ts, t.text ≠ word "#") → L.expands table ts o → Uses L σ ops r o2 → Uses L σ ops (.text ts :: r) (o ++ o2)
  | ifdef (ops : Ops) (l : Line) (t : PTok) (ex : List PTok) (a : List PTok) (e : Line) (b : List PTok) (last : Line) (v : Option Macro)
      (table : Name → Option Macro) (r : List Step) (o o2 : List PTok) :
      l.Is ["ifdef"] → l.args = t :: ex → t.kind = .ident → Means σ ops t.text v → (∀ n, Means σ ops n (table n)) →
      (∀ t ∈ (if v.isSome then a else b), t.text ≠ word "#") → L.expands table (if v.isSome then a else b) o → Uses L σ ops r o2 →
      Uses L σ ops (.ifdef l a e b last :: r) (o ++ o2)

/-- A replacement list has white space before it. -/
def withSpace : List PTok → List PTok
  | [] => []
  | t :: r => { t with hasSpace := true } :: r

/-- What the argument of a `-D` defines: `NAME` as `one`, `NAME=body` and `NAME(params)=body` as the body. -/
inductive CliDefines (one : PTok) : List PTok → Name → Macro → Prop where
  | name (t : PTok) : t.kind = .ident → CliDefines one [t] t.text { isObj := true, body := withSpace [one] }
  | obj (t eq : PTok) (body : List PTok) : t.kind = .ident → eq.text = word "=" → CliDefines one (t :: eq :: body) t.text { isObj := true, body := withSpace body }
  | fn (t lp rp eq : PTok) (ps body : List PTok) (ns : List Name) (va : Bool) : t.kind = .ident → lp.text = word "(" → lp.hasSpace = false →
      Params ps ns va → rp.text = word ")" → eq.text = word "=" →
      CliDefines one (t :: lp :: (ps ++ rp :: eq :: body)) t.text { isObj := false, params := ns, vaArg := va, body := withSpace body }

end Slimcc.Spec
