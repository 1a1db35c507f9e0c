import Verif.Spec.Align
/-!
Model of the alignment of variables (parse.c: `attr_aligned` 594-608, `tyspec_attr` 680, `declspec` 767-779 and
860-872, `declarator2` 1268-1278, `declaration2` 1464-1542, `new_var` 464-471, `parse_typedef` 4489-4505,
`global_declaration` 4631-4703).

Simplifications: arguments are their values and not negative; one variable at a time at file scope; whether an
alignment is a power of two is not checked, as in the code.
-/
set_option autoImplicit false
namespace Slimcc.Align
open Slimcc.Spec.Align

/-- parse.c:594-608. -/
def attrAligned (std : Bool) : List Marked → Nat → Nat
  | [], a => a
  | m :: ms, a =>
    if m.std = std then
      match m.aligned with
      | some (some n) => attrAligned std ms (max a n)
      | some none => attrAligned std ms (max a 16)
      | none => attrAligned std ms a
    else attrAligned std ms a

/-- parse.c:777-872: the loop over the specifiers. -/
def specLoop : List (List Marked × Spec) → List Marked → Nat → Nat
  | [], last, a => attrAligned false last a
  | (ms, .alignas n) :: r, last, a => specLoop r last (max (attrAligned false ms a) n)
  | (ms, .other) :: r, last, a => specLoop r last (attrAligned false ms a)

/-- parse.c:767-768 and the loop: `attr->align`. -/
def declspec (s : Specs) : Nat := specLoop s.toks s.last (attrAligned true s.first 0)

/-- parse.c:1268-1278. -/
def declarator2 (k : Decltor) (a : Nat) : Nat :=
  attrAligned false k.fin (attrAligned true k.after (attrAligned false k.name a))

/-- parse.c:467 with 1497, 1527, 1541, 4498 or 4687: the alignment of a new variable, or of a typedef name. -/
def newAlign (alt tyAlign : Nat) : Nat := if alt ≠ 0 then alt else tyAlign

/-- The declarators of one declaration (parse.c:1592-1606, 4491-4504, 4632-4636): each starts with `attr->align`. -/
def declareAll (s : Specs) (ks : List Decltor) : List Nat := ks.map fun k => newAlign (declarator2 k (declspec s)) k.tyAlign

/-- slimcc.h `Obj` of a variable at file scope. -/
structure Var where
  align : Nat
  isDef : Bool
  isTent : Bool
  deriving DecidableEq, Repr

/-- parse.c:4664-4701: one declarator; the argument is what `find_var` finds. -/
def globalDecl (v : Option Var) (f : FDecl) : Option Var :=
  let alt := declarator2 f.decltor (declspec f.specs)
  let isDef := !f.isExtern || f.hasInit
  match v with
  | none => some ⟨newAlign alt f.decltor.tyAlign, isDef, !f.hasInit && isDef⟩
  | some v =>
    if !isDef then some v
    else if v.isDef && !v.isTent then some v
    else some ⟨newAlign alt v.align, isDef, !f.hasInit⟩

/-- All declarations of a variable, in order. -/
def globalDecls (fs : List FDecl) : Option Var := fs.foldl globalDecl none

end Slimcc.Align
