import Verif.Model.Compile
import Verif.Model.CallConv
import Verif.Spec.Call
/-!
Model of function calls (codegen.c:1407-1530, 1769-1782, 4180-4211; parse.c:4043-4103) with
arguments of integer type. Where an argument goes is decided by `calling_convention`
(Model/CallConv); here is the code that gets its value there.

Simplifications: no argument contains a call; the function is named directly, or is an expression of
an eight-byte integer type converted to a pointer to a function (a conversion that prints nothing,
codegen.c:1097-1116); the function is not `alloca`. The alignment of the arguments is at most 8, so
the branches for `arg_stk_align > 16` are not reached.
-/
set_option autoImplicit false
namespace Slimcc.Gen
open Slimcc.Ty Slimcc.Spec Slimcc.X86
open Slimcc.CC (Slot Cnt conv alignTo b2n gpMax)

section
variable (hs : HostShift) (opt : Bool) (Γ : Nat → Spec.CTy) (loc : Nat → MemOp) (stk : Nat)

/-- parse.c:4063-4086: the tree of an argument. With a parameter the assignment made at 4065-4068
converts it to the type of the parameter (type.c, as in `build` of an assignment); without one a type
smaller than `int` is converted to `int`. -/
def argTree (a : Actual) : Node :=
  match a.param with
  | some t => newCast hs opt (build hs opt Γ a.e) (ity t)
  | none =>
    let n := build hs opt Γ a.e
    if n.ty.size < 4 then newCast hs opt n ty_int else n

/-- codegen.c:80-83 `argreg64`. -/
def argReg (k : Nat) : Reg := [Reg.tmp 0, .tmp 1, .dx, .cx, .tmp 2, .tmp 3].getD k .ax

/-- codegen.c:871-888 `load_val2` into a register. -/
def loadValTo (r : Reg) (t : ITy) (v : Word) : List Ins :=
  if v = 0 then [.alu .xor 4 (.reg r) (.reg r)]
  else if v = zx 4 v then [.mov 4 (.imm v) (.reg r)]
  else if v = sx 4 v then
    (if t.size = 8 then [.mov 8 (.imm v) (.reg r)] else [.mov 4 (.imm v) (.reg r)])
  else [.mov 8 (.imm v) (.reg r)]

/-- codegen.c:2723-2758 `gen_load_opt_gp` into a register. -/
def loadOptTo (r : Reg) (n : Node) : Option (List Ins) :=
  match n with
  | .cast t e =>
    match memop e with
    | some x =>
      if t.size > e.ty.size then
        if !e.ty.uns && t.size = 8 then some [loadExt64 e.ty (loc x) r]
        else if !(t.size = 2 && t.uns && !e.ty.uns) then some [loadExt e.ty (loc x) r]
        else none
      else if t.kind ≠ .bool then some [loadExt t (loc x) r]
      else none
    | none => none
  | _ => none

/-- codegen.c:4180-4211 `prepare_funcall`: the register argument with number `k` among them (from 0)
gets a local variable. -/
def spills (k : Nat) (n : Node) : Bool :=
  if opt then
    match evalNode hs n with
    | .ok _ => false
    | _ => !((loadOptTo loc .ax n).isSome || (memop n).isSome || k == 0)
  else true

/-- The arguments that get one, `h` is 1 if the address of the result is passed as the first. -/
def Spilled (E : Env) (as : List Actual) (h i : Nat) : Prop :=
  h + i < 6 ∧ ∃ a, as[i]? = some a ∧ spills hs opt E.loc i (argTree hs opt E.Γ a) = true

/-- codegen.c:965-970 `gen_var_assign` with 2294-2334 `gen_void_assign`: the argument is assigned to
the variable at `dst`. The end is `gen_expr2` of the assignment: codegen.c:2893-2897 under
optimization, or 1678-1683. -/
def assignTo (dst : MemOp) (n0 : Node) : G :=
  let n := newCast hs opt n0 n0.ty
  let sz := n0.ty.size
  match evalNode hs n with
  | .ok v => inss (immTmpl (fun o => .mov sz o (.mem dst)) (limitImm v sz))
  | _ =>
    match copyFrom n0.ty n with
    | some y => inss [.mov sz (.mem (loc y)) (.reg .dx), .mov sz (.reg .dx) (.mem dst)]
    | none =>
      if opt then genExpr hs opt loc stk n ;; inss [.mov sz (.reg .ax) (.mem dst)]
      else
        inss [.lea dst .ax] ;;
          tmp (pushIns stk true .ax) (genExpr hs opt loc stk n)
            (fun l => popIn stk true l ++ [.mov sz (.reg .ax) (.mem (.ind (popReg l)))])

/-- codegen.c:1407-1412, the first loop of `gen_funcall_args`: arguments with a `ptr`, that is on the
stack (codegen.c:4187-4189) or with a local variable. `i` is the number of the argument, `k` the
number of register arguments before it, `temp i` the offset of its local variable. -/
def argStores (temp : Nat → Int) : List Node → List Slot → Nat → Nat → G
  | n :: ns, .onStack o :: ss, i, k =>
    assignTo hs opt loc stk (.off .sp o) n ;; argStores temp ns ss (i + 1) k
  | n :: ns, .inRegs :: ss, i, k =>
    (if spills hs opt loc k n then assignTo hs opt loc stk (.frame (temp i)) n else lines []) ;;
      argStores temp ns ss (i + 1) (k + 1)
  | _, _, _, _ => lines []

/-- codegen.c:1417-1455, one turn of the second loop: the register argument `k` goes to register `gp`;
1376-1405 `place_reg_arg` for an integer is a load. -/
def placeArg (temp : Int) (k gp : Nat) (n : Node) : G :=
  let fromTemp := inss [loadExt n.ty (.frame temp) (argReg gp)]
  if opt then
    match evalNode hs n with
    | .ok v => inss (loadValTo (argReg gp) n.ty v)
    | _ =>
      match loadOptTo loc (argReg gp) n with
      | some l => inss l
      | none =>
        match memop n with
        | some x => inss [loadExt n.ty (loc x) (argReg gp)]
        | none =>
          if k = 0 then genExpr hs opt loc stk n ;; inss [.mov 8 (.reg .ax) (.reg (argReg gp))]
          else fromTemp
  else fromTemp

/-- codegen.c:1417-1455. -/
def argLoads (temp : Nat → Int) : List Node → List Slot → Nat → Nat → Nat → G
  | _ :: ns, .onStack _ :: ss, i, k, gp => argLoads temp ns ss (i + 1) k gp
  | n :: ns, .inRegs :: ss, i, k, gp =>
    placeArg hs opt loc stk (temp i) k gp n ;; argLoads temp ns ss (i + 1) (k + 1) (gp + 1)
  | _, _, _, _, _ => lines []

/-- A call. -/
structure Site where
  args : List Actual
  /-- The function, if it is not named directly. -/
  fn : Option Expr
  /-- The frame offset of the buffer for a result of more than 16 bytes. -/
  ret : Option Int
  variadic : Bool

/-- codegen.c:1407-1458 `gen_funcall_args`, 1468-1473, 1488-1504: room on the stack, the arguments,
the address of the buffer for the result, and the number of vector registers in %al. -/
def argCode (c : Site) (temp : Nat → Int) : G :=
  let ns := c.args.map (argTree hs opt Γ)
  let gp := b2n c.ret.isSome
  let (ss, cnt) := conv (ns.map fun n => .scalar (.int n.ty.size) n.ty.size) { gp := gp, fp := 0 }
  inss (if cnt.stack ≠ 0 then [.alu .sub 8 (.imm (BitVec.ofNat 64 (alignTo cnt.stack 16))) (.reg .sp)] else []) ;;
    argStores hs opt loc stk temp ns ss 0 0 ;;
    argLoads hs opt loc stk temp ns ss 0 0 gp ;;
    inss (match c.ret with | some o => [.lea (.frame o) (.tmp 0)] | none => []) ;;
    inss (if c.variadic then
      (if cnt.fpCount ≠ 0 then [.mov 1 (.imm (BitVec.ofNat 64 cnt.fpCount)) (.reg .ax)]
       else [.alu .xor 1 (.reg .ax) (.reg .ax)]) else [])

/-- codegen.c:322-327 `clobber_gp`. -/
def clobberGp (k : Nat) : G := fun c => (⟨[], k, 0⟩, c)

/-- codegen.c:1508-1512: the registers for temporaries that also hold arguments. -/
def fnClobber : Nat → Nat
  | 0 => 0
  | 1 => 1
  | _ => 4

/-- codegen.c:1507-1514: the call through a pointer; `pop_inreg` with fallback %r10. -/
def fnReg : TLoc → Reg
  | .reg i => .tmp i
  | .stk _ => .tmp 4
def fnPop : TLoc → List Ins
  | .reg _ => []
  | .stk k => [.mov 8 (.mem (slotMem stk k)) (.reg (.tmp 4))]

/-- A call as printed: the lines before the call instruction, the register with the address of the
function if it is not named, and the lines after it. -/
structure Printed where
  before : Out
  target : Option Reg
  after : List Ins

/-- codegen.c:1460-1530 `gen_funcall`, and the end of ND_FUNCALL at 1769-1782 for a result of integer
type `rt` that is used (`none`: not used, or not an integer). After the call every register is taken
(`clobber_all_regs`). -/
def funcall (c : Site) (temp : Nat → Int) (rt : Option ITy) : Nat → Printed × Nat := fun lab =>
  let ns := c.args.map (argTree hs opt Γ)
  let cnt := (conv (ns.map fun n => .scalar (.int n.ty.size) n.ty.size) { gp := b2n c.ret.isSome, fp := 0 }).2
  let back : List Ins := if cnt.stack ≠ 0 then [.alu .add 8 (.imm (BitVec.ofNat 64 (alignTo cnt.stack 16))) (.reg .sp)] else []
  let widen : List Ins := match rt with
    | some t => if t.size < 4 then [.movx (!t.uns) t.size 4 (.reg .ax) .ax] else []
    | none => []
  let args := argCode hs opt Γ loc stk c temp
  match c.fn with
  | none =>
    let (o, lab) := args lab
    (⟨{ o with gp := GP_SLOTS }, none, back ++ widen⟩, lab)
  | some f =>
    let body := args ;; clobberGp (fnClobber cnt.gpCount)
    let (p, l1) := compileExpr hs opt Γ loc stk f lab
    let (o, _) := body l1
    let (q, l2) := tmp (pushIns stk true .ax) body (fnPop stk) l1
    (⟨⟨p.code ++ q.code, GP_SLOTS, max p.st q.st⟩, some (fnReg (slot o.gp o.st)), back ++ widen⟩, l2)

end
end Slimcc.Gen
