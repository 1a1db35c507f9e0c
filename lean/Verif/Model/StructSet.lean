import Verif.Model.AddrGen
import Verif.Model.MemCopy
/-!
Model of the code of assignments of structures (codegen.c: ND_ASSIGN 1678-1683, its shortcut in
`gen_expr_opt` 2892-2896, `gen_void_assign` 2294-2334, `store` 862-869 and `store3` 834-840 for structures,
`gen_mem_copy2` 557-571).

Simplifications: those of `Model.AddrGen`; unions are structures here; nothing is atomic. The code is given in
two parts, since the processor of `Model.X86` has no vector registers: the lines up to the copy, which may
have labels, and the copy, which has none.
-/
set_option autoImplicit false
namespace Slimcc.AGen
open Slimcc.Spec (CTy OTy ODecls LV PE IE ArOp)
open Slimcc.Ty Slimcc.X86 Slimcc.Gen Slimcc.Addr Slimcc.MemCopy

/-- codegen.c:557-571 `gen_mem_copy2`, from the iteration with offset `i` on; `src i` and `dst i` are the
operands `i+ofs(ptr)`. -/
def copyOps (src dst : Nat → MemOp) (sz i : Nat) : List VIns :=
  if i < sz then
    if sz - i ≥ 16 then .ldx (src i) :: .stx (dst i) :: copyOps src dst sz (i + 16)
    else
      .gp (.mov (p2 (sz - i)) (.mem (src i)) (.reg .dx)) :: .gp (.mov (p2 (sz - i)) (.reg .dx) (.mem (dst i))) ::
        copyOps src dst sz (i + p2 (sz - i))
  else []
termination_by sz - i
decreasing_by
  · omega
  · have := p2_pos (sz - i); omega

section
variable (C : Cfg) (P : ODecls) (loc : Nat → MemOp) (obj : Nat → Int → MemOp) (stk : Nat)

/-- codegen.c:261-267 `is_memop` and 226-246 `eval_memop` of a structure: the operands of its bytes. -/
def placeA (n : ANode) : Option (Nat → MemOp) := (evalVar C P false (skipCastA P n)).map fun r i => obj r.1 (r.2 + i)

/-- The operands `i+0(reg)`. -/
def behind (r : Reg) : Nat → MemOp := fun i => .off r i

/-- codegen.c:2892-2896 and 1678-1683 up to the copy. -/
def setLines (l r : ANode) : G :=
  match (if C.opt then placeA C P obj l else none) with
  | some _ => genExprA C P loc obj stk r
  | none => genAddrA C P loc obj stk l ;; tmp (pushIns stk true .ax) (genExprA C P loc obj stk r) (popIn stk true)

/-- codegen.c:2895 and 867-868 with 835-840: the copy; `c` is the label counter before all of it. -/
def setCopy (l r : ANode) (c : Nat) : List VIns :=
  match (if C.opt then placeA C P obj l else none) with
  | some d => copyOps (behind .ax) d (P.sizeof l.ty) 0
  | none =>
    let o := (genExprA C P loc obj stk r (genAddrA C P loc obj stk l c).2).1
    copyOps (behind .ax) (behind (popReg (slot o.gp o.st))) (P.sizeof l.ty) 0

/-- codegen.c:2304-2318, 2333 `gen_void_assign` up to the copy. -/
def setVoidLines (l r : ANode) : G :=
  match placeA C P obj r with
  | some _ =>
    match placeA C P obj l with
    | some _ => lines []
    | none => genAddrA C P loc obj stk l
  | none => setLines C P loc obj stk l r

/-- codegen.c:2310, 2315, 2333: the copy. -/
def setVoidCopy (l r : ANode) (c : Nat) : List VIns :=
  match placeA C P obj r with
  | some s =>
    match placeA C P obj l with
    | some d => copyOps s d (P.sizeof l.ty) 0
    | none => copyOps s (behind .ax) (P.sizeof l.ty) 0
  | none => setCopy C P loc obj stk l r c

/-- The code of `l = r` as an expression, and as a statement. -/
def compileSetS (l r : LV) : G := setLines C P loc obj stk (buildL C P l) (buildL C P r)
def compileSetSCopy (l r : LV) (c : Nat) : List VIns := setCopy C P loc obj stk (buildL C P l) (buildL C P r) c
def compileSetSVoid (l r : LV) : G := setVoidLines C P loc obj stk (buildL C P l) (buildL C P r)
def compileSetSVoidCopy (l r : LV) (c : Nat) : List VIns := setVoidCopy C P loc obj stk (buildL C P l) (buildL C P r) c

end
end Slimcc.AGen
