/-!
Which functions have to be in the output.
-/
set_option autoImplicit false
namespace Slimcc.Spec

/-- A use of the function `to`: in the body of a function, or (`none`) outside of all functions. -/
structure FnUse where
  by_ : Option Nat
  to : Nat

/-- What the source says of a function. -/
structure FnDecl where
  defined : Bool
  static : Bool
  inline : Bool

/-- A function that has to be there anyway: it can be called from other files, or something outside
of all functions refers to it. -/
def MustEmit (fns : List FnDecl) (uses : List FnUse) (i : Nat) : Prop :=
  ∃ d, fns[i]? = some d ∧ d.defined = true ∧ (¬(d.static = true ∧ d.inline = true) ∨ ⟨none, i⟩ ∈ uses)

/-- A function that has to be there, or that one of those uses, directly or not. -/
inductive Needed (fns : List FnDecl) (uses : List FnUse) : Nat → Prop
  | root {i : Nat} : MustEmit fns uses i → Needed fns uses i
  | step {i j : Nat} : Needed fns uses i → ⟨some i, j⟩ ∈ uses → Needed fns uses j

end Slimcc.Spec
