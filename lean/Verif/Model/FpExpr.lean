import Verif.Model.FpCast
import Verif.Spec.FpExpr
/-!
Code for expressions with floating operands (codegen.c), and the folding of their constants (parse.c).

Represented as in Model/Gen: lines, with the depths `fp` and `st` an enclosing temporary has to be above
(codegen.c:350-355); `fninit; fldt` is two instructions. Simplifications: those of Model/Gen; lvalues are variables;
no `constexpr` objects; the tree is the one before `new_cast` (parse.c:346-382) folds casts of constants, whose result
is what `eval_double` and `eval` give for the cast itself, so that the code is the same. `unary +` is left out
(codegen.c:1638 passes over it).
-/
set_option autoImplicit false
namespace Slimcc.FP
open Slimcc.Spec.FP Slimcc.Spec Slimcc.X86 Slimcc.Ty Slimcc.Gen

structure FOut where
  code : List FLine
  fp : Nat
  st : Nat

def gps (l : List Ins) : List FLine := l.map fun i => .i (.gp i)

/-- codegen.c:7. -/
def FP_SLOTS : Nat := 6

/-- codegen.c:345-348: the place of a temporary of kind SL_FP. -/
def fslot (o : FOut) : TLoc := if o.fp < FP_SLOTS then .reg o.fp else .stk o.st

def isDouble (f : FTy) : Bool := f == .double

/-! Folding. -/

/-- parse.c:3143-3150 `eval_fp_cast`. -/
def fpCast (f : FTy) (x : Fl) : Fl := convert f80 (convert f.fmt x)

/-- The four operations on long double of the compiler. -/
def hostOp (op : FBin) (x y : Fl) : Fl :=
  match op with
  | .add => add f80 x y
  | .sub => sub f80 x y
  | .mul => mul f80 x y
  | .div => div f80 x y

/-- Comparison of long doubles in the compiler. -/
def hostCmp (op : FCmp) (x y : Fl) : Bool :=
  match compare x y with
  | none => op == .ne
  | some (l, e) =>
    match op with
    | .eq => e | .ne => !e | .lt => l | .le => l || e | .gt => !(l || e) | .ge => !l

/-- parse.c:2975-2981, a cast of a floating constant to an integer type: conversion to `int64_t`, or `uint64_t` if the type
is unsigned of eight bytes, then `eval_sign_extend`. Out of the range of the type C defines no result, nor does it for the
compiler's own conversion; then the result here is zero. -/
def hostInt (t : CTy) (x : Fl) : ℤ :=
  match t, x with
  | .bool, x => if compare x (.fin false 0 f80.emin) = some (false, true) then 0 else 1
  | t, x =>
    match roundInt 3 x with
    | some z => if t.minVal ≤ z ∧ z ≤ t.maxVal then z else 0
    | none => 0

/-- A constant of the tree as a long double. -/
def asLong (c : Fl) : Fl := convert f80 c

mutual
/-- parse.c:3152-3190 `eval_double`. -/
def foldD (Γ : Nat → VTy) : FE → Option Fl
  | .var _ => none
  | .inum .. => none
  | .num _ c => some (asLong c)
  | .neg e => (foldD Γ e).map neg
  | .bin op a b =>
    match foldD Γ a, foldD Γ b, a.ty Γ with
    | some x, some y, .flo f => some (fpCast f (hostOp op x y))
    | _, _, _ => none
  | .cmp .. => none
  | .not _ => none
  | .cast t e =>
    match t, e.ty Γ with
    | .flo f, .flo _ => (foldD Γ e).map (fpCast f)
    | .flo _, .int _ => (foldI Γ e).map (ofInt f80)
    | _, _ => none
/-- parse.c:2839-3099 `eval`, its cases for these trees: 2930-2957, 2966, 2975-2981. -/
def foldI (Γ : Nat → VTy) : FE → Option ℤ
  | .var _ => none
  | .inum _ z => some z
  | .num .. => none
  | .neg _ => none
  | .bin .. => none
  | .cmp op a b =>
    match foldD Γ a, foldD Γ b with
    | some x, some y => some (if hostCmp op x y then 1 else 0)
    | _, _ => none
  | .not e => (foldI Γ e).map fun z => if z = 0 then 1 else 0
  | .cast t e =>
    match t with
    | .int t => (foldD Γ e).map (hostInt t)
    | .flo _ => none
end

/-! Code. -/

section
variable (opt : Bool) (Γ : Nat → VTy) (loc : Nat → MemOp) (stk : Nat)

def plain (l : List FLine) : FOut := ⟨l, 0, 0⟩

/-- codegen.c:787-800 `load3`. -/
def load3 (t : VTy) (m : MemOp) : List FLine :=
  match t with
  | .flo .float => [.i (.movld false m 0)]
  | .flo .double => [.i (.movld true m 0)]
  | .flo .ldouble => [.i .fninit, .i (.fldt m)]
  | .int t => gps [loadExt (ity t) m .ax]

/-- codegen.c:894-918 `load_f32_f64` into `%xmm0`; `c` is the constant as a long double. -/
def loadSse (d : Bool) (c : Fl) : List FLine :=
  let w := bits d (convert (fmtOf d) c)
  if w = 0 then [.i (.pxor 0 0)]
  else if d then [.i (.gp (.mov 8 (.imm w) (.reg .ax))), .i (.movg true .ax 0)]
  else [.i (.gp (.mov 4 (.imm w) (.reg .ax))), .i (.movg false .ax 0)]

/-- codegen.c:920-956 `load_fval`. -/
def loadFval (f : FTy) (c : Fl) : List FLine :=
  match f with
  | .float => loadSse false c
  | .double => loadSse true c
  | .ldouble =>
    if encode80 c = (0, 0) then [.i .fninit, .i .fldz]
    else if encode80 c = (0, 2 ^ 15) then [.i .fninit, .i .fldz, .i .fchs]
    else if compare c (.fin false (2 ^ 63) (-63)) = some (false, true) then [.i .fninit, .i .fld1]
    else if compare c (.fin true (2 ^ 63) (-63)) = some (false, true) then [.i .fninit, .i .fld1, .i .fchs]
    else [
      .i (.gp (.mov 8 (.imm (BitVec.ofNat 64 (encode80 c).1)) (.reg .ax))), .i (.gp (.mov 2 (.imm (BitVec.ofNat 64 (encode80 c).2)) (.reg .dx))),
      .i .pushdx, .i .push, .i .fninit, .i (.fldt (at_ 0)), .i (.gp (.alu .add 8 (.imm 16) (.reg rsp)))]

/-- codegen.c:1640-1659: negation of the value in place. -/
def negate (f : FTy) : List FLine :=
  match f with
  | .float => [.i (.gp (.mov 4 (.imm 0x80000000) (.reg .ax))), .i (.movg false .ax 1), .i (.pxor 1 0)]
  | .double => [.i (.gp (.mov 8 (.imm 0x8000000000000000) (.reg .ax))), .i (.movg true .ax 1), .i (.pxor 1 0)]
  | .ldouble => [.i .fchs]

/-- codegen.c:420-435 `pop_fp`: the line inserted where the slot was pushed, the line printed, and the register. -/
def pushF (d : Bool) : TLoc → List FLine
  | .reg i => [.i (.movs d 0 (i + 2))]
  | .stk k => [.i (.movst d 0 (slotMem stk k))]
def popF (d : Bool) : TLoc → List FLine
  | .reg _ => []
  | .stk k => [.i (.movld d (slotMem stk k) 1)]
def popReg (l : TLoc) : Nat := match l with | .reg i => i + 2 | .stk _ => 1

/-- codegen.c:1895-1901, 1951-1954: both operands. In front of the operator the left one is in register `popReg`, or on top
of the x87 stack, the right one in `%xmm0` or next on the stack. -/
def operands (f : FTy) (a b : FOut) (op : Nat → List FLine) : FOut :=
  match f with
  | .ldouble =>
    ⟨a.code ++ [.i (.fstpt (slotMem stk (b.st + 1)))] ++ b.code ++ [.i (.fldt (slotMem stk (b.st + 1)))] ++ op 0,
      max a.fp b.fp, max a.st (b.st + 2)⟩
  | f =>
    let l := fslot b
    ⟨a.code ++ pushF stk (isDouble f) l ++ b.code ++ popF stk (isDouble f) l ++ op (popReg l),
      max a.fp (b.fp + match l with | .reg _ => 1 | .stk _ => 0), max a.st (b.st + match l with | .reg _ => 0 | .stk _ => 1)⟩

/-- codegen.c:1904-1917, 1957-1968. -/
def arith (f : FTy) (op : FBin) (r : Nat) : List FLine :=
  match f with
  | .ldouble =>
    match op with
    | .add => [.i .faddp] | .sub => [.i .fsubp] | .mul => [.i .fmulp] | .div => [.i .fdivp]
  | f =>
    match op with
    | .add => [.i (.adds (isDouble f) r 0)]
    | .sub => [.i (.subs (isDouble f) 0 r), .i (.movaps r 0)]
    | .mul => [.i (.muls (isDouble f) r 0)]
    | .div => [.i (.divs (isDouble f) 0 r), .i (.movaps r 0)]

/-- codegen.c:1929-1944, 1983-1998. -/
def setFlag (op : FCmp) : List FLine :=
  (match op with
  | .eq => [.i (.gp (.set .e .ax)), .i (.setp true .dx), .i (.gp (.alu .and 1 (.reg .dx) (.reg .ax)))]
  | .ne => [.i (.gp (.set .ne .ax)), .i (.setp false .dx), .i (.gp (.alu .or 1 (.reg .dx) (.reg .ax)))]
  | .lt | .gt => [.i (.gp (.set .a .ax))]
  | .le | .ge => [.i (.gp (.set .ae .ax))]) ++
  [.i (.gp (.movx false 1 4 (.reg .ax) .ax))]

/-- codegen.c:1918-1945, 1969-1999. -/
def comparison (f : FTy) (op : FCmp) (r : Nat) : List FLine :=
  (match f with
  | .ldouble => (if op = .lt ∨ op = .le then [.i .fxch] else []) ++ [.i .fucomip, .i .fdrop]
  | f => if op = .gt ∨ op = .ge then [.i (.ucomis (isDouble f) 0 r)] else [.i (.ucomis (isDouble f) r 0)]) ++
  setFlag op

/-- codegen.c:615-627 `flip_cmp`. -/
def flipCmp : FCmp → FCmp
  | .eq => .ne | .ne => .eq | .lt => .ge | .le => .gt | .gt => .le | .ge => .lt

/-- The floating type of a node. -/
def fltTy (t : VTy) : FTy := match t with | .flo f => f | .int _ => .double

/-- codegen.c:1102-1116 `gen_cast`, but for casts to `bool`. -/
def castCode (src dst : VTy) : List FLine :=
  match src, dst with
  | .int t, .flo f => toFloat (typeId (ity t)) f
  | .flo f, .int t => fromFloat f (typeId (ity t))
  | .flo f, .flo g => floatFloat f g
  | .int _, .int _ => []

/-- The comparison of an operand `a` of type `f` with the zero of `gen_cmp_zero` (codegen.c:958-963). -/
def cmpZero (op : FCmp) (f : FTy) (a : FOut) : FOut :=
  operands stk f a (plain (loadFval f (.fin false 0 f80.emin))) (comparison f op)

/-- codegen.c:2874-2884: the value of a constant expression, if constants are folded. -/
def constD (e : FE) : Option Fl := if opt then foldD Γ e else none
def constI (e : FE) : Option ℤ := if opt then foldI Γ e else none

/-- codegen.c:871-892. -/
def loadInt (t : CTy) (z : ℤ) : FOut := plain (gps (loadVal (ity t) (BitVec.ofInt 64 z)))

mutual
/-- codegen.c:1621-2003 `gen_expr2`, with `gen_expr_opt` (2865-2930) if `opt`: constants are folded (2874-2884), variables
are loaded without their address (2889-2892), `!` is taken into a comparison (2838-2863 `gen_bool_opt`). -/
def genF : FE → FOut
  | .num f c => plain (loadFval f (asLong c))
  | .inum t z => loadInt t z
  | .var x => plain (if opt then load3 (Γ x) (loc x) else gps [.lea (loc x) .ax] ++ load3 (Γ x) (.off .ax 0))
  | .neg a =>
    match constD opt Γ (.neg a) with
    | some c => plain (loadFval (fltTy (a.ty Γ)) c)
    | none => ⟨(genF a).code ++ negate (fltTy (a.ty Γ)), (genF a).fp, (genF a).st⟩
  | .bin op a b =>
    match constD opt Γ (.bin op a b) with
    | some c => plain (loadFval (fltTy (a.ty Γ)) c)
    | none => operands stk (fltTy (a.ty Γ)) (genF a) (genF b) (arith (fltTy (a.ty Γ)) op)
  | .cmp op a b =>
    match constI opt Γ (.cmp op a b) with
    | some z => loadInt .int z
    | none => operands stk (fltTy (a.ty Γ)) (genF a) (genF b) (comparison (fltTy (a.ty Γ)) op)
  | .not a =>
    match constI opt Γ (.not a) with
    | some z => loadInt .int z
    | none =>
      if opt then genNot true a
      else ⟨(genF a).code ++ gps [.alu .xor 1 (.imm 1) (.reg .ax)], (genF a).fp, (genF a).st⟩
  | .cast t a =>
    match t with
    | .flo f =>
      match constD opt Γ (.cast (.flo f) a) with
      | some c => plain (loadFval f c)
      | none => ⟨(genF a).code ++ castCode (a.ty Γ) (.flo f), (genF a).fp, (genF a).st⟩
    | .int u =>
      match constI opt Γ (.cast (.int u) a) with
      | some z => loadInt u z
      | none =>
        if u = .bool then cmpZero stk .ne (fltTy (a.ty Γ)) (genF a)
        else ⟨(genF a).code ++ castCode (a.ty Γ) (.int u), (genF a).fp, (genF a).st⟩
/-- codegen.c:2838-2863 `gen_bool_opt` below `!`s, an odd number of them if `flip`: the loop of 2801-2836 `bool_expr_opt`
ends at a comparison, or below a cast to `bool` at its floating operand. What it ends at is not constant, for
constants have been folded before. -/
def genNot (flip : Bool) : FE → FOut
  | .not a => genNot (!flip) a
  | .cmp op a b =>
    operands stk (fltTy (a.ty Γ)) (genF a) (genF b) (comparison (fltTy (a.ty Γ)) (if flip then flipCmp op else op))
  | .cast _ a => cmpZero stk (if flip then .eq else .ne) (fltTy (a.ty Γ)) (genF a)
  | _ => plain []
end

end
end Slimcc.FP
