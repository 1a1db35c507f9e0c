import Verif.Model.PPTok
/-!
Specification of stringizing (C29, C13), from C23 6.10.5.2.
-/
set_option autoImplicit false
namespace Slimcc.Spec
open Slimcc.PP (PTok)

/-- White space stood before the token. -/
def spaced (t : PTok) : Bool := t.hasSpace || t.atBol

/-- Spelling of a token list: the texts `f t`, with one space before each token but the first that
had white space before it. -/
def spelling (f : PTok → List Nat) : List PTok → List Nat
  | [] => []
  | t :: ts => f t ++ ts.flatMap (fun u => (if spaced u then [32] else []) ++ f u)

/-- A backslash in front of each backslash and quote. -/
def escaped (t : List Nat) : List Nat := t.flatMap (fun b => if b = 92 ∨ b = 34 then [92, b] else [b])

/-- In stringizing, the text of string and character literals is escaped. -/
def isLiteral (t : PTok) : Prop := t.kind = .str ∨ t.kind = .intNum
instance (t : PTok) : Decidable (isLiteral t) := inferInstanceAs (Decidable (_ ∨ _))

end Slimcc.Spec
