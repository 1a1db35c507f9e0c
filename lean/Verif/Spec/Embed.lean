set_option autoImplicit false

/-!
What C23 6.10.4 says about `#embed` and `__has_embed`, on lists of spellings. Nothing here refers to the
functions of the compiler.
-/

namespace Slimcc.EmbedSpec

/-- A balanced sequence of tokens (6.10.1, pp-balanced-token-sequence), parentheses only. -/
inductive Balanced : List String → Prop
  | nil : Balanced []
  | tok (t : String) (l : List String) : t ≠ "(" → t ≠ ")" → Balanced l → Balanced (t :: l)
  | paren (a b : List String) : Balanced a → Balanced b → Balanced ("(" :: (a ++ ")" :: b))

/-- A parameter of the directive: `name(arg)`. -/
structure Par where
  name : String
  arg : List String

/-- The spelling of the parameters. -/
def text (ps : List Par) : List String :=
  ps.flatMap fun p => p.name :: "(" :: (p.arg ++ [")"])

/-- The parameters of the standard, with balanced arguments. -/
def Standard (ps : List Par) : Prop :=
  ∀ p ∈ ps, p.name ∈ ["limit", "if_empty", "prefix", "suffix"] ∧ Balanced p.arg

/-- The argument of the parameter of a name. (No parameter may be given twice; if one is, the last counts.) -/
def argOf (n : String) : List Par → Option (List String)
  | [] => none
  | p :: ps => (argOf n ps).or (if p.name = n then some p.arg else none)

/-- The limit of the parameters is `l`: there is none, or its expression has that value. -/
def LimitIs (ev : List String → Option Int) (ps : List Par) (l : Option Nat) : Prop :=
  match argOf "limit" ps, l with
  | none, none => True
  | some a, some n => ev a = some (n : Int)
  | _, _ => False

/-- The bytes of the file which are embedded. -/
def taken (l : Option Nat) (bytes : List UInt8) : List UInt8 :=
  match l with
  | none => bytes
  | some n => bytes.take n

/-- The bytes as a list of decimal constants. -/
def commas : List UInt8 → List String
  | [] => []
  | [b] => [toString b.toNat]
  | b :: bs => toString b.toNat :: "," :: commas bs

/-- What replaces the directive. -/
def replacement (ps : List Par) (l : Option Nat) (bytes : List UInt8) : List String :=
  if taken l bytes = [] then (argOf "if_empty" ps).getD []
  else (argOf "prefix" ps).getD [] ++ commas (taken l bytes) ++ (argOf "suffix" ps).getD []

end Slimcc.EmbedSpec
