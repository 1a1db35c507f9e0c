import Verif.Model.LocalVars
import Verif.Spec.Layout
/-!
What it means that variables live together, and that their places are right.
-/
set_option autoImplicit false
namespace Slimcc.Spec
open Slimcc.Frame

mutual
/-- The lists of variables found on the way from a scope down to some scope inside: these variables
are alive at the same time. -/
inductive Path {α : Type} : Scope α → List α → Prop where
  | here (ls : List α) (cs : Scopes α) : Path (.mk ls cs) ls
  | down (ls : List α) (cs : Scopes α) (l : List α) : SubPath cs l → Path (.mk ls cs) (ls ++ l)
inductive SubPath {α : Type} : Scopes α → List α → Prop where
  | first (s : Scope α) (r : Scopes α) (l : List α) : Path s l → SubPath (.cons s r) l
  | next (s : Scope α) (r : Scopes α) (l : List α) : SubPath r l → SubPath (.cons s r) l
end

mutual
/-- All variables of a scope and the scopes inside. -/
def allVars {α : Type} : Scope α → List α
  | .mk ls cs => ls ++ allSubs cs
def allSubs {α : Type} : Scopes α → List α
  | .nil => []
  | .cons s r => allVars s ++ allSubs r
end

mutual
/-- The same tree without the offsets. -/
def scopeVars {α β : Type} (f : α → β) : Scope α → Scope β
  | .mk ls cs => .mk (ls.map f) (subsVars f cs)
def subsVars {α β : Type} (f : α → β) : Scopes α → Scopes β
  | .nil => .nil
  | .cons s r => .cons (scopeVars f s) (subsVars f r)
end

/-- Two variables at their offsets do not share a byte. Parameters passed on the stack are in the
caller's part of the frame. -/
def Apart (p q : Var × Int) : Prop :=
  p.1.byStack = true ∨ q.1.byStack = true ∨ p.2 + p.1.size ≤ q.2 ∨ q.2 + q.1.size ≤ p.2

/-- Sizes and alignments as the parser makes them. -/
structure VarWf (v : Var) : Prop where
  size : 0 ≤ v.size
  align : ∃ k : Nat, v.align = (2 ^ k : Nat)
  stack : 0 ≤ v.stackOffset ∧ v.stackOffset ≤ 2 ^ 30

/-- An upper bound for the frame: the sizes of all variables and the padding before each. -/
def budget (l : List Var) : Int := (l.map fun v => v.size + max 16 v.align).sum

end Slimcc.Spec
