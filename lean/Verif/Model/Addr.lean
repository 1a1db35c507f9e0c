import Verif.Model.Expr
import Verif.Spec.Lvalue
/-!
Model of the trees the parser builds for designators and pointer expressions (parse.c:346-382, 3511-3570,
3638-3670, 3934-3954, 3994-4036, type.c:432-440, 502-520) and of the evaluation of such trees to "variable
plus constant" (parse.c:2759-2808, 2872-3114), which decides what is an address constant, what
`offsetof` gives, and which accesses the code generator turns into accesses at a fixed offset of a
variable (codegen.c:226-267).

Simplifications: no bit-fields, functions, variable-length arrays, labels, qualifiers, atomic or weak
variables; no object has contents known to the compiler (`constexpr` objects and initialised constant
statics, parse.c:2810-2837, are left out); integer operands are those of `Spec.IE`. Host additions of
`int64_t` wrap, and the two operands of a host `+` are evaluated from left to right.
-/
set_option autoImplicit false
namespace Slimcc.Addr
open Slimcc.Spec (CTy OTy ODecls LV PE IE Expr)
open Slimcc.Ty

/-- slimcc.h:353-417 `NodeKind`: the kinds that occur in designators, with `node->ty`; `int` is a tree
over integer variables. ND_MEMBER has `node->member->offset`. -/
inductive ANode where
  | int (t : CTy) (n : Node)
  | var (t : OTy) (x : Nat)
  | deref (t : OTy) (a : ANode)
  | member (t : OTy) (ofs : Nat) (a : ANode)
  | addr (t : OTy) (a : ANode)
  | cast (t : OTy) (a : ANode)
  | add (t : OTy) (a b : ANode)
  | sub (t : OTy) (a b : ANode)
  | mul (t : OTy) (a b : ANode)
  deriving DecidableEq, Repr

/-- `node->ty`. -/
def ANode.ty : ANode → OTy
  | .int t _ => .int t
  | .var t _ => t
  | .deref t _ => t
  | .member t _ _ => t
  | .addr t _ => t
  | .cast t _ => t
  | .add t _ _ => t
  | .sub t _ _ => t
  | .mul t _ _ => t

/-- parse.c:85-101 `EvalKind`. -/
inductive EvKind where
  | con | lab | agg
  deriving DecidableEq, Repr

/-- parse.c:93-101 `EvalContext`. -/
structure Ctx where
  label : Bool := false
  var : Option Nat := none
  cnt : Int := 0
  pend : Bool := false
  deriving DecidableEq, Repr

/-- What the model does not fix: host shifts out of range, `opt_optimize`, and which equal types are
one object in the compiler's memory (types are compared by address, parse.c:365). -/
structure Cfg where
  hs : HostShift
  opt : Bool
  same : OTy → OTy → Bool

def isArr : OTy → Bool
  | .arr _ _ => true
  | _ => false

/-- The loops of parse.c:3042 and 3050: the dimensions of an array. -/
def dims : OTy → Int
  | .arr t _ => 1 + dims t
  | _ => 0

/-- parse.c:3042-3045 and 3050-3053. -/
def enter (t : OTy) (c : Ctx) : Ctx :=
  if isArr t then { c with pend := false, cnt := c.cnt - dims t } else c

/-- parse.c:2995-3000: a cast on values. -/
def castTo (t : OTy) (v : BitVec 64) : BitVec 64 :=
  match t with
  | .int c => evalCastTo (ity c) v
  | _ => v

/-- parse.c:2839-2841: only integers are cut to size. -/
def sext (t : OTy) (v : BitVec 64) : BitVec 64 :=
  match t with
  | .int c => signExt (ity c) v
  | _ => v

/-- parse.c:3027-3031: the operands of `*` that are looked into. -/
def ANode.looked : ANode → Bool
  | .member _ _ _ | .cast _ _ | .add _ _ _ | .sub _ _ _ => true
  | _ => false

/-- parse.c:2772, 2788: ND_MEMBER or ND_DEREF. -/
def ANode.isPart : ANode → Bool
  | .member _ _ _ | .deref _ _ => true
  | _ => false

def ANode.isArrVar : ANode → Bool
  | .var t _ => isArr t
  | _ => false

/-- parse.c:2788-2797 `eval_var_ofs` for ND_MEMBER and ND_DEREF, given the result of `eval_ctx`: the
variable and the offset as an `int`. -/
def varOfs (sub : Bool) (r : Option (BitVec 64 × Ctx)) : Option (Nat × Int) :=
  match r with
  | some (v, c) =>
    match c.var with
    | some x =>
      if !c.pend && (c.cnt == 0 || (sub && decide (c.cnt < 0))) then some (x, (v.setWidth 32).toInt) else none
    | none => none
  | none => none

/-- parse.c:3063-3081: the label of an array. -/
def labelOf (r : Option (Nat × Int)) (c : Ctx) : Option (BitVec 64 × Ctx) :=
  if c.label then none
  else
    match r with
    | some (x, o) => some (BitVec.ofInt 64 o, { c with label := true, var := some x })
    | none => none

/-- parse.c:2774: the value of an address without a variable. -/
def nonVar (r : Option (BitVec 64 × Ctx)) : Option (BitVec 64) :=
  match r with
  | some (v, c) => if c.var.isNone then some v else none
  | none => none

/-- parse.c:3002-3007: a fixed address, or what follows the `switch`. -/
def fixedOr (v : Option (BitVec 64)) (c : Ctx) (r : Option (BitVec 64 × Ctx)) : Option (BitVec 64 × Ctx) :=
  match v with
  | some v => some (v, c)
  | none => r

/-- parse.c:2872-3101 `eval2`; `none` is `eval_error`. -/
def ev (C : Cfg) (P : ODecls) : ANode → EvKind → Ctx → Option (BitVec 64 × Ctx)
  | .int _ n, _, c =>
    match evalNode C.hs n with
    | .ok v => some (v, c)
    | _ => none
  | .var t x, .agg, c =>
    match t with
    | .arr _ _ => some (0, { enter t c with var := some x })
    | .struct _ => some (0, { c with var := some x })
    | _ => none
  | .var t x, .lab, c => if isArr t then labelOf (some (x, 0)) c else none
  | .var _ _, .con, _ => none
  | .deref t a, k, c =>
    match a with
    | .addr _ l => ev C P l k c
    | a =>
      let agg := fun c : Ctx =>
        if a.looked && (!c.pend || isArr t) then ev C P a .agg { c with pend := true, cnt := c.cnt + 1 } else none
      match k with
      | .agg => agg c
      | .lab => if isArr t then labelOf (varOfs true (agg {})) c else none
      | .con => none
  | .member t ofs a, k, c =>
    let agg := fun c : Ctx => (ev C P a .agg (enter t c)).map fun r => (r.1 + BitVec.ofNat 64 ofs, r.2)
    match k with
    | .agg => agg c
    | .lab => if isArr t then labelOf (varOfs true (agg {})) c else none
    | .con => none
  | .addr _ a, k, c =>
    fixedOr (if a.isPart then nonVar (ev C P a .agg {}) else none) c
      (match a with
      | .deref _ p => ev C P p k c
      | a =>
        match k with
        | .agg => if c.pend then ev C P a .agg { c with pend := false } else none
        | .lab =>
          match a with
          | .var _ x => labelOf (some (x, 0)) c
          | a => if a.isPart then labelOf (varOfs true (ev C P a .agg {})) c else none
        | .con => none)
  | .cast t a, k, c =>
    if t = .int .bool ∧ a.isArrVar then some (1, c)
    else if P.sizeof t ≠ 8 ∧ ((ev C P a .lab {}).map (·.2.label)).getD false then
      (if t = .int .bool then some (1, c) else none)
    else (ev C P a k c).map fun r => (castTo t r.1, r.2)
  | .add t a b, k, c =>
    match ev C P a k c with
    | some (x, c) => (ev C P b k c).map fun r => (sext t (x + r.1), r.2)
    | none => none
  | .sub t a b, k, c =>
    match ev C P a k c with
    | some (x, c) => (ev C P b .con {}).map fun r => (sext t (x - r.1), c)
    | none => none
  | .mul t a b, _, c =>
    match ev C P a .con {} with
    | some (x, _) => (ev C P b .con {}).map fun r => (sext t (x * r.1), c)
    | none => none

/-- parse.c:2780-2808 `eval_var`, `eval_var_opt`. -/
def evalVar (C : Cfg) (P : ODecls) (sub : Bool) (n : ANode) : Option (Nat × Int) :=
  match n with
  | .var _ x => some (x, 0)
  | n => if n.isPart then varOfs sub (ev C P n .agg {}) else none

/-- parse.c:2771-2778 `eval_non_var_ofs`. -/
def evalNonVar (C : Cfg) (P : ODecls) (n : ANode) : Option (BitVec 64) :=
  if n.isPart then nonVar (ev C P n .agg {}) else none

/-- parse.c:3103-3114 `is_const_expr`. -/
def constOf (C : Cfg) (P : ODecls) (n : ANode) : Option (BitVec 64) := (ev C P n .con {}).map (·.1)

/-- type.c:159-187 with parse.c:374-377: the cast made redundant by a cast to `t`. -/
def redundant (n : ANode) (t : OTy) : Option ANode :=
  match n, t with
  | .cast (.int t2) e, .int t1 =>
    match e.ty with
    | .int t3 => if is_redundant_cast (ity t1) (ity t2) (ity t3) then some e else none
    | _ => none
  | _, _ => none

/-- parse.c:346-382 `new_cast`. -/
def castA (C : Cfg) (P : ODecls) (n : ANode) (t : OTy) : ANode :=
  match n, t with
  | .int _ m, .int c => .int c (newCast C.hs C.opt m (ity c))
  | n, t =>
    if C.opt then
      match t, constOf C P (.cast t n) with
      | .int c, some v => .int c (.num (ity c) v)
      | _, _ =>
        if C.same n.ty t then n
        else
          match redundant n t with
          | some e => .cast t e
          | none => .cast t n
    else .cast t n

/-- `ty->base`. -/
def baseOf : OTy → OTy
  | .ptr t => t
  | .arr t _ => t
  | t => t

/-- type.c:434-437: an array as a pointer. -/
def ptrOf (C : Cfg) (P : ODecls) (n : ANode) : ANode :=
  match n.ty with
  | .arr t _ => castA C P n (.ptr t)
  | _ => n

/-- type.c:336-347 `int_promotion`. -/
def promoteA (C : Cfg) (P : ODecls) (n : ANode) : ANode :=
  if P.sizeof n.ty < 4 then castA C P n (.int .int) else n

/-- parse.c:3527-3531: an index times the size of an element, with the conversions of
type.c:407-411. -/
def scale (C : Cfg) (P : ODecls) (n : ANode) (size : Nat) : ANode :=
  match n with
  | .int t m => .int (CTy.common t.promote .long) (mkBin C.hs C.opt .mul m (.num ty_long (BitVec.ofNat 64 size)))
  | n =>
    let n := promoteA C P n
    let t := match n.ty with
      | .int t => CTy.common t .long
      | _ => .long
    .mul (.int t) (castA C P n (.int t)) (castA C P (.int .long (.num ty_long (BitVec.ofNat 64 size))) (.int t))

/-- parse.c:3934-3954 `struct_ref` for a named member; the model numbers the members. -/
def memberOf (P : ODecls) (n : ANode) (i : Nat) : ANode :=
  match n.ty with
  | .struct s =>
    match (P.structs s).members[i]? with
    | some m => .member m.2 m.1 n
    | none => n
  | _ => n

mutual
/-- The tree of an lvalue: parse.c:3638-3670, 3994-4025. -/
def buildL (C : Cfg) (P : ODecls) : LV → ANode
  | .var x => .var (P.objs x) x
  | .deref p => .deref (baseOf (buildP C P p).ty) (buildP C P p)
  | .member l i => memberOf P (buildL C P l) i
/-- The tree of a pointer expression: parse.c:3511-3560, 3638-3660. -/
def buildP (C : Cfg) (P : ODecls) : PE → ANode
  | .addr l => .addr (.ptr (buildL C P l).ty) (buildL C P l)
  | .decay l => buildL C P l
  | .value l => buildL C P l
  | .cast t p => castA C P (buildP C P p) (.ptr t)
  | .ofInt t i => castA C P (buildI C P i) (.ptr t)
  | .add p i =>
    .add (.ptr (baseOf (buildP C P p).ty)) (ptrOf C P (buildP C P p))
      (scale C P (buildI C P i) (P.sizeof (baseOf (buildP C P p).ty)))
  | .radd i p =>
    .add (.ptr (baseOf (buildP C P p).ty)) (scale C P (buildI C P i) (P.sizeof (baseOf (buildP C P p).ty)))
      (ptrOf C P (buildP C P p))
  | .sub p i =>
    .sub (.ptr (baseOf (buildP C P p).ty)) (ptrOf C P (buildP C P p))
      (scale C P (buildI C P i) (P.sizeof (baseOf (buildP C P p).ty)))
/-- The tree of an integer expression. -/
def buildI (C : Cfg) (P : ODecls) : IE → ANode
  | .expr e => .int (e.ty P.ints) (build C.hs C.opt P.ints e)
  | .obj l => buildL C P l
  | .ofPtr t p => castA C P (buildP C P p) (.int t)
  | .plus a b => .add (.int .long) (castA C P (buildI C P a) (.int .long)) (castA C P (buildI C P b) (.int .long))
end

/-- codegen.c:226-267 `eval_memop`, through `eval_var_opt`: the variable and offset of a designator. -/
def resolve (C : Cfg) (P : ODecls) (sub : Bool) (l : LV) : Option (Nat × Int) := evalVar C P sub (buildL C P l)

/-- parse.c:4313-4330 `__builtin_offsetof`, and 3002-3006: an address that is a number. -/
def fixedAddr (C : Cfg) (P : ODecls) (l : LV) : Option (BitVec 64) := evalNonVar C P (buildL C P l)

/-- parse.c:2129-2149 `write_gvar_data`: the initializer of a pointer object of static storage duration;
the symbol if there is one, and the addend. -/
def staticInit (C : Cfg) (P : ODecls) (t : OTy) (p : PE) : Option (Option Nat × BitVec 64) :=
  match constOf C P (.cast (.ptr t) (buildP C P p)) with
  | some v => some (none, v)
  | none =>
    match ev C P (.cast (.ptr t) (buildP C P p)) .lab {} with
    | some (v, c) => if c.label then some (c.var, v) else none
    | none => none

end Slimcc.Addr
