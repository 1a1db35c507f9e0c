import Verif.Model.Layout
/-!
Model of the placement of local variables in the frame (codegen.c:3826-3872 and the part of
`emit_text`, codegen.c:4057-4114, that computes the size of the frame).

The arithmetic is that of `int`, as in `Layout`. Offsets are relative to `lvar_ptr` (%rbp, or %rbx
for frames with a larger alignment); parameters passed on the stack are relative to %rbp.
-/
set_option autoImplicit false
namespace Slimcc.Frame
open Slimcc.Layout

/-- What `Obj` (slimcc.h) says about a local variable, with the size and the kind of its type. -/
structure Var where
  size : Int
  align : Int
  isArray : Bool
  isVla : Bool
  byStack : Bool
  stackOffset : Int
  deriving DecidableEq, Repr

mutual
/-- slimcc.h `Scope`: the variables and the scopes inside. -/
inductive Scope (α : Type) where
  | mk (locals : List α) (children : Scopes α)
inductive Scopes (α : Type) where
  | nil
  | cons (s : Scope α) (rest : Scopes α)
end

/-- codegen.c:3826-3836 `get_lvar_align`. -/
def varsAlign : List Var → Int → Int
  | [], a => a
  | v :: vs, a => varsAlign vs (if v.byStack then a else max a v.align)
mutual
def lvarAlign : Scope Var → Int → Int
  | .mk ls cs, a => subsAlign cs (varsAlign ls a)
def subsAlign : Scopes Var → Int → Int
  | .nil, a => a
  | .cons s r, a => subsAlign r (max a (lvarAlign s a))
end

/-- codegen.c:3850-3856: the alignment used for a variable. -/
def varAlign (v : Var) : Int :=
  if v.isArray = true ∧ v.size ≥ 16 then max 16 v.align
  else if v.isVla then 8
  else v.align

/-- codegen.c:3839-3862: the variables of a scope, with their offsets, and the new bottom. The size is
an `int64_t`, the sum is converted to `int`. -/
def assignVars : List Var → Int → Outcome (List (Var × Int) × Int)
  | [], bottom => .ok ([], bottom)
  | v :: vs, bottom =>
    if v.byStack then do
      let o ← int (v.stackOffset + 16)
      let (ps, b) ← assignVars vs bottom
      .ok ((v, o) :: ps, b)
    else do
      let bottom ← alignTo (toInt (bottom + v.size)) (varAlign v)
      let o ← int (-bottom)
      let (ps, b) ← assignVars vs bottom
      .ok ((v, o) :: ps, b)

mutual
/-- codegen.c:3838-3872 `assign_lvar_offsets`; `reuse` is `opt_reuse_stack` without
`dont_reuse_stk`. -/
def assign (reuse : Bool) : Scope Var → Int → Outcome (Scope (Var × Int) × Int)
  | .mk ls cs, bottom => do
    let (ps, b) ← assignVars ls bottom
    let (qs, d) ← assignSubs reuse cs b b
    .ok (.mk ps qs, d)
def assignSubs (reuse : Bool) : Scopes Var → Int → Int → Outcome (Scopes (Var × Int) × Int)
  | .nil, _, depth => .ok (.nil, depth)
  | .cons s r, bottom, depth => do
    let (p, sub) ← assign reuse s bottom
    let (ps, d) ← (if reuse = false then assignSubs reuse r sub sub else assignSubs reuse r bottom (max depth sub))
    .ok (.cons p ps, d)
end

/-- codegen.c:4076-4114: the space below the frame pointer: the register save area of a variadic
function, the saved stack pointer of functions with VLAs, the address of a returned structure, the
variables. -/
structure Fn where
  variadic : Bool
  deallocVla : Bool
  rtnByStk : Bool
  scopes : Scope Var

/-- What the prologue puts below the frame pointer: each entry is an offset and the number of bytes
stored from there; `top` is `lvar_stk_sz` before the variables are placed. -/
structure Fixed where
  slots : List (Int × Int)
  top : Int

/-- codegen.c:4074-4104: the save area of a variadic function; its first register is stored 176 bytes
below the frame pointer, its last at -16 with 16 bytes. -/
def saveArea (f : Fn) (x : Fixed) : Fixed :=
  if f.variadic then ⟨x.slots ++ [(-176, 176)], x.top + 176⟩ else x

/-- codegen.c:4107-4110, `vla_base_ofs`. -/
def vlaBase (f : Fn) (x : Fixed) : Fixed :=
  if f.deallocVla then ⟨x.slots ++ [(-(x.top + 8), 8)], x.top + 8⟩ else x

/-- codegen.c:4112-4115, `rtn_ptr_ofs`. -/
def rtnPtr (f : Fn) (x : Fixed) : Fixed :=
  if f.rtnByStk then ⟨x.slots ++ [(-(x.top + 8), 8)], x.top + 8⟩ else x

/-- codegen.c:4072-4115. -/
def fixed (f : Fn) : Fixed := rtnPtr f (vlaBase f (saveArea f ⟨[], 0⟩))

def reserved (f : Fn) : Int := (fixed f).top

/-- The offsets of the variables and `lvar_stk_sz`. -/
def frame (reuse : Bool) (f : Fn) : Outcome (Scope (Var × Int) × Int) := do
  let (ps, d) ← assign reuse f.scopes (reserved f)
  let sz ← alignTo d 8
  .ok (ps, sz)

end Slimcc.Frame
