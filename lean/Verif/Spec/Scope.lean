/-!
Lexical scoping.
-/
set_option autoImplicit false
namespace Slimcc.Spec

/-- What a name is declared to be: an object, a function, or something else (a type, an enumeration
constant); `id` tells the declared things apart. -/
inductive EntKind where
  | obj | func | other
  deriving DecidableEq, Repr

structure Ent where
  id : Nat
  kind : EntKind
  deriving DecidableEq, Repr

/-- What the parser comes across, in order: declarations of ordinary names and of tags, uses of
them, blocks, expressions that need a temporary (`f(…)`, `a ?: b`), and functions with their
parameters, their own name (if it is new) and their body. -/
inductive Hist where
  | nil
  | var (n : List Nat) (v : Ent) (r : Hist)
  | tag (n : List Nat) (t : Ent) (r : Hist)
  | useVar (n : List Nat) (r : Hist)
  | useTag (n : List Nat) (r : Hist)
  | block (b : Hist) (r : Hist)
  | tmp (b : Hist) (r : Hist)
  | fn (params : Hist) (name : Option (List Nat × Ent)) (body : Hist) (r : Hist)
  deriving Repr

/-- Declarations, the latest first: ordinary names and tags are two name spaces. -/
structure Decls where
  vars : List (List Nat × Ent)
  tags : List (List Nat × Ent)
  deriving Repr

/-- The latest declaration of a name. -/
def latestOf (n : List Nat) : List (List Nat × Ent) → Option Ent
  | [] => none
  | (m, v) :: l => if m = n then some v else latestOf n l

/-- The declarations that can be seen: first those of the scope itself, then those around it. -/
def Decls.over (a b : Decls) : Decls := ⟨a.vars ++ b.vars, a.tags ++ b.tags⟩

/-- The declaration of the function's own name. -/
def Decls.name (e : Decls) : Option (List Nat × Ent) → Decls
  | none => e
  | some d => ⟨d :: e.vars, e.tags⟩

/-- What the uses mean, in order, and the declarations of the scope at the end: `loc` are the
declarations made so far in this scope, `out` the ones around it. A block starts with nothing and
what it declares is gone at its end; the body of a function is a block in the scope of the
parameters. -/
def meanings : Hist → Decls → Decls → List (Option Ent) × Decls
  | .nil, loc, _ => ([], loc)
  | .var n v r, loc, out => meanings r ⟨(n, v) :: loc.vars, loc.tags⟩ out
  | .tag n t r, loc, out => meanings r ⟨loc.vars, (n, t) :: loc.tags⟩ out
  | .useVar n r, loc, out => (latestOf n (loc.over out).vars :: (meanings r loc out).1, (meanings r loc out).2)
  | .useTag n r, loc, out => (latestOf n (loc.over out).tags :: (meanings r loc out).1, (meanings r loc out).2)
  | .block b r, loc, out =>
    ((meanings b ⟨[], []⟩ (loc.over out)).1 ++ (meanings r loc out).1, (meanings r loc out).2)
  | .tmp b r, loc, out =>
    ((meanings b loc out).1 ++ (meanings r (meanings b loc out).2 out).1, (meanings r (meanings b loc out).2 out).2)
  | .fn ps f body r, loc, out =>
    ((meanings ps ⟨[], []⟩ (loc.over out)).1 ++
      (meanings body ⟨[], []⟩ ((meanings ps ⟨[], []⟩ (loc.over out)).2.over ((loc.name f).over out))).1 ++
      (meanings r (loc.name f) out).1, (meanings r (loc.name f) out).2)

/-- Nothing is declared in the scope itself. -/
def noDecl : Hist → Bool
  | .nil => true
  | .var _ _ _ => false
  | .tag _ _ _ => false
  | .useVar _ r => noDecl r
  | .useTag _ r => noDecl r
  | .block _ r => noDecl r
  | .tmp b r => noDecl b && noDecl r
  | .fn _ _ _ _ => false

/-- Functions are defined at file scope only, and an expression that needs a temporary declares
nothing (outside of blocks in it). -/
def Hist.Ok : Hist → Bool → Prop
  | .nil, _ => True
  | .var _ _ r, top => r.Ok top
  | .tag _ _ r, top => r.Ok top
  | .useVar _ r, top => r.Ok top
  | .useTag _ r, top => r.Ok top
  | .block b r, top => b.Ok false ∧ r.Ok top
  | .tmp b r, top => b.Ok false ∧ noDecl b = true ∧ r.Ok top
  | .fn ps _ body r, top => top = true ∧ ps.Ok false ∧ body.Ok false ∧ r.Ok top

end Slimcc.Spec
