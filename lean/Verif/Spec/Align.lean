/-!
Alignment specifiers (C23 6.7.6) and the attribute `aligned` (GCC manual, "Common Variable Attributes"): what a
declaration asks for.
-/
set_option autoImplicit false
namespace Slimcc.Spec.Align

/-- An attribute, `[[gnu::…]]` (`std`) or `__attribute__((…))`. `aligned` is `none` for other attributes, `some none`
for `aligned` without an argument. -/
structure Marked where
  std : Bool
  aligned : Option (Option Nat)
  deriving DecidableEq, Repr

/-- A token of the declaration specifiers, `_Alignas(…)` with its value (that of the constant expression, or the
alignment of the type) counts as one. -/
inductive Spec where
  | alignas (n : Nat)
  | other
  deriving DecidableEq, Repr

/-- The specifiers of a declaration, each with the attributes directly in front of it; `last` are those in front
of the first declarator. -/
structure Specs where
  toks : List (List Marked × Spec)
  last : List Marked
  deriving Repr

/-- A declarator: the attributes in front of its name, of the token after the name, and of the first token after
the declarator; the alignment of the type it declares. -/
structure Decltor where
  name : List Marked
  after : List Marked
  fin : List Marked
  tyAlign : Nat
  deriving Repr

/-- The attribute asks for the alignment `n`; without an argument that is the largest the target needs for any
type, 16. -/
def Marked.Is (m : Marked) (std : Bool) (n : Nat) : Prop := m.std = std ∧ (m.aligned = some (some n) ∨ m.aligned = some none ∧ n = 16)
def In (std : Bool) (ms : List Marked) (n : Nat) : Prop := ∃ m ∈ ms, m.Is std n

/-- The attributes in front of the first token of the declaration. -/
def Specs.first (s : Specs) : List Marked :=
  match s.toks with
  | [] => s.last
  | p :: _ => p.1

/-- The declaration asks for the alignment `n` for what the declarator declares. -/
def Asks (s : Specs) (k : Decltor) (n : Nat) : Prop :=
  (∃ ms, (ms, Spec.alignas n) ∈ s.toks) ∨ In true s.first n ∨ (∃ p ∈ s.toks, In false p.1 n) ∨ In false s.last n ∨
    In false k.name n ∨ In true k.after n ∨ In false k.fin n

/-- `n` is the strictest alignment asked for. `_Alignas(0)` has no effect. -/
def Strictest (s : Specs) (k : Decltor) (n : Nat) : Prop := 0 < n ∧ Asks s k n ∧ ∀ m, Asks s k m → m ≤ n
/-- Nothing is asked for. -/
def Free (s : Specs) (k : Decltor) : Prop := ∀ n, Asks s k n → n = 0

/-- A declaration of a variable at file scope. -/
structure FDecl where
  specs : Specs
  decltor : Decltor
  isExtern : Bool
  hasInit : Bool
  deriving Repr

/-- It is a definition or a tentative definition. -/
def FDecl.Defines (f : FDecl) : Prop := f.isExtern = false ∨ f.hasInit = true

end Slimcc.Spec.Align
