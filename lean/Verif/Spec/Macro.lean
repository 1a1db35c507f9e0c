import Verif.Model.PPTok
/-!
Token sequences with parentheses, and the arguments of a macro invocation (C23 6.10.5).
-/
set_option autoImplicit false
namespace Slimcc.Spec
open Slimcc.PP

def IsOpen (t : PTok) : Prop := t.text = [40]
def IsClose (t : PTok) : Prop := t.text = [41]
def IsComma (t : PTok) : Prop := t.text = [44]

/-- The parentheses match. -/
inductive Nested : List PTok → Prop where
  | nil : Nested []
  | tok (t : PTok) (ts : List PTok) : ¬ IsOpen t → ¬ IsClose t → Nested ts → Nested (t :: ts)
  | paren (o c : PTok) (a b : List PTok) : IsOpen o → IsClose c → Nested a → Nested b → Nested (o :: a ++ c :: b)

/-- The parentheses match, and there is no comma outside of them. -/
inductive NoTopComma : List PTok → Prop where
  | nil : NoTopComma []
  | tok (t : PTok) (ts : List PTok) : ¬ IsOpen t → ¬ IsClose t → ¬ IsComma t → NoTopComma ts → NoTopComma (t :: ts)
  | paren (o c : PTok) (a b : List PTok) : IsOpen o → IsClose c → Nested a → NoTopComma b → NoTopComma (o :: a ++ c :: b)

/-- The arguments `args`, with a comma between any two, are the text `ts`. -/
inductive Commas : List (List PTok) → List PTok → Prop where
  | one (a : List PTok) : Commas [a] a
  | more (a : List PTok) (c : PTok) (args : List (List PTok)) (ts : List PTok) : IsComma c → Commas args ts →
      Commas (a :: args) (a ++ c :: ts)

/-- `ts` is what stands between the parentheses of an invocation of a macro with `n` parameters that is
not variadic: as many arguments, none of which has a comma of its own. -/
def FixedArgs (n : Nat) (args : List (List PTok)) (ts : List PTok) : Prop :=
  args.length = n ∧ (∀ a ∈ args, NoTopComma a) ∧ (if n = 0 then ts = [] else Commas args ts)

/-- The same for a variadic macro with `n` parameters, the last one for the variable arguments. They
take all the rest with its commas; they may be left out together with the comma before them. -/
def VarArgs (n : Nat) (args : List (List PTok)) (omitted : Bool) (ts : List PTok) : Prop :=
  ∃ fixed va, args = fixed ++ [va] ∧ args.length = n ∧ (∀ a ∈ fixed, NoTopComma a) ∧ Nested va ∧
    if omitted then va = [] ∧ (if fixed = [] then ts = [] else Commas fixed ts)
    else Commas args ts

/-- Every opening parenthesis has its closing one. -/
def Closed (ts : List PTok) : Prop :=
  ∀ a o b, ts = a ++ o :: b → IsOpen o → ∃ inside c rest, b = inside ++ c :: rest ∧ Nested inside ∧ IsClose c

/-- Only punctuators are parentheses. -/
def ParensArePuncts (ts : List PTok) : Prop := ∀ t ∈ ts, IsOpen t ∨ IsClose t → t.kind = .punct

/-- A token without its white space. -/
def bare (t : PTok) : PTok := { t with atBol := false, hasSpace := false }

/-- Rescanning with object-like macros only (C23 6.10.5.5): `find` yields the replacement list of a name, the
names in `D` are being replaced. Such a name is not replaced again, and is marked so that it never will be. -/
inductive Rescan (find : List Nat → Option (List PTok)) : List (List Nat) → List PTok → List PTok → Prop where
  | nil (D : List (List Nat)) : Rescan find D [] []
  | other (D : List (List Nat)) (t : PTok) (r o : List PTok) : t.noExpand = true ∨ t.kind ≠ .ident ∨ find t.text = none →
      Rescan find D r o → Rescan find D (t :: r) (t :: o)
  | nested (D : List (List Nat)) (t : PTok) (r o : List PTok) : t.noExpand = false → t.kind = .ident → (find t.text).isSome →
      t.text ∈ D → Rescan find D r o → Rescan find D (t :: r) ({ t with noExpand := true } :: o)
  | macro (D : List (List Nat)) (t : PTok) (body r o1 o2 : List PTok) : t.noExpand = false → t.kind = .ident → find t.text = some body →
      t.text ∉ D → Rescan find (t.text :: D) (body.map bare) o1 → Rescan find D r o2 → Rescan find D (t :: r) (o1 ++ o2)

end Slimcc.Spec
