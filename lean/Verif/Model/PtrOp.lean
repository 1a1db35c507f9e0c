import Verif.Model.AddrOp
/-!
Model of `p += i`, `p -= i`, `++p`, `--p`, `p++` and `p--` for pointers that are variables, members, array
elements or pointed to (parse.c:3511-3560 `new_add` and `new_sub`, 3257-3267 `to_assign`, 3677-3683,
3956-3974 `new_inc_dec`; type.c:432-443; codegen.c:972-977 `gen_expr_null_lhs`, 1684-1700, 2234-2292).

Simplifications: those of `Model.AddrGen`; the pointer is not atomic and does not point to variable length
arrays, the integer is an expression over integer variables. A pointer is loaded, stored and added to as an
integer of its size: the type of the scaled index, `idxTy`, stands for the pointer type where the code
generator asks for its size (`ptr_load` in Props/C75 shows that the load is the same).
-/
set_option autoImplicit false
namespace Slimcc.AGen
open Slimcc.Spec (CTy OTy ODecls LV PE IE ArOp BinOp Expr)
open Slimcc.Ty Slimcc.X86 Slimcc.Gen Slimcc.Addr

section
variable (C : Cfg) (P : ODecls) (loc : Nat → MemOp) (obj : Nat → Int → MemOp) (stk : Nat)

/-- parse.c:3527-3531, 3552-3555: the index times the size of an element, an `intptr_t`. -/
def idxExpr (size : Nat) (e : Expr) : Expr := .bin (.ar .mul) e (.num .long size)
def idxNode (t : OTy) (e : Expr) : Node := build C.hs C.opt P.ints (idxExpr (P.sizeof t) e)
def idxTy (t : OTy) (e : Expr) : CTy := (idxExpr (P.sizeof t) e).ty P.ints

/-- codegen.c:972-977 with type.c:432-439: the operands of an addition to a pointer are not converted, and
the conversion of the result to its own type has no code. -/
def nullPtr (op : ArOp) (r : Node) : Node := .bin op r.ty (.null r.ty) r

/-- The operator for a pointer. -/
def updown (up : Bool) : ArOp := if up then .add else .sub

/-- `p += e` and `p -= e`. -/
def compilePtrOp (up : Bool) (t : OTy) (l : LV) (e : Expr) : G :=
  genOpN C P loc obj stk (nullPtr (updown up) (idxNode C P t e)) (idxTy P t e) (buildL C P l)
/-- `++p` and `--p`, which are `p += 1` and `p -= 1`. -/
def compilePtrPre (up : Bool) (t : OTy) (l : LV) : G := compilePtrOp C P loc obj stk up t l (.num .int 1)
/-- `p++` and `p--`: the sum with 1 or -1, and with optimisation the one that undoes it. -/
def compilePtrPost (up : Bool) (t : OTy) (l : LV) : G :=
  let d : Int := if up then 1 else -1
  genPostN C P loc obj stk (idxTy P t (.num .int d)) (buildL C P l) (nullPtr .add (idxNode C P t (.num .int d)))
    (nullPtr .add (idxNode C P t (.num .int (-d))))

/-- codegen.c:2265-2292 `gen_void_arith_assign`: the value is not used. -/
def genPtrVoid (op : ArOp) (t : OTy) (l : LV) (e : Expr) : G :=
  match aluOf op with
  | some ins =>
    if C.opt then memopArithA C P loc obj stk ins (idxTy P t e) (buildL C P l) (idxNode C P t e)
    else genOpN C P loc obj stk (nullPtr op (idxNode C P t e)) (idxTy P t e) (buildL C P l)
  | none => genOpN C P loc obj stk (nullPtr op (idxNode C P t e)) (idxTy P t e) (buildL C P l)
/-- `p += e;` and `p -= e;` as statements. -/
def compilePtrVoid (up : Bool) (t : OTy) (l : LV) (e : Expr) : G := genPtrVoid C P loc obj stk (updown up) t l e
/-- `p++;` and `p--;` as statements (codegen.c:2336-2356 strips conversions and sums). -/
def compilePtrPostVoid (up : Bool) (t : OTy) (l : LV) : G :=
  genPtrVoid C P loc obj stk .add t l (.num .int (if up then 1 else -1))

end
end Slimcc.AGen
