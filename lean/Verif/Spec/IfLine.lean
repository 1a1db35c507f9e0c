import Verif.Spec.Macro
/-!
The operand of `#if` (C23 6.10.2): `defined X` and `defined (X)` are 1 or 0; the rest is macro-expanded; the
identifiers that are left are 0, but `true` is 1 in C23.
-/
set_option autoImplicit false
namespace Slimcc.IfLine
open Slimcc.PP Slimcc.Lex Slimcc.Spec

def wDefined : List Nat := "defined".toList.map Char.toNat
def wTrue : List Nat := "true".toList.map Char.toNat

def number (t : PTok) (b : Bool) : PTok := { t with kind := .intNum, text := if b then [49] else [48] }

/-- What is left of a token after expansion. -/
def operandOf (c23 : Bool) (t : PTok) : PTok :=
  if c23 ∧ t.text = wTrue then number t true else if t.kind = .ident then number t false else t

/-- `isDef` says which names are defined, `expands ts es` that the expansion of `ts` is `es`. The tokens of a line,
and those of the constant expression it stands for, without their white space. -/
inductive Reads (c23 : Bool) (isDef : List Nat → Bool) (expands : List PTok → List PTok → Prop) : List PTok → List PTok → Prop where
  | nil : Reads c23 isDef expands [] []
  | defd (d x : PTok) (operand r o : List PTok) : d.kind = .ident → d.text = wDefined → x.kind = .ident →
      (operand = [x] ∨ ∃ lp rp, IsOpen lp ∧ IsClose rp ∧ operand = [lp, x, rp]) → ¬ IsOpen x →
      Reads c23 isDef expands r o → Reads c23 isDef expands (d :: operand ++ r) (bare (number d (isDef x.text)) :: o)
  | text (ts es r o : List PTok) : expands ts es → (∀ t ∈ es, t.text ≠ wDefined) → (r = [] ∨ ∃ d r', r = d :: r' ∧ d.text = wDefined) →
      Reads c23 isDef expands r o → Reads c23 isDef expands (ts ++ r) (es.map (fun t => bare (operandOf c23 t)) ++ o)

end Slimcc.IfLine
