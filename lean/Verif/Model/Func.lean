import Verif.Model.Stmt
import Verif.Model.Call
import Verif.Model.Atomic
import Verif.Model.X86Prog
import Verif.Spec.Prog
/-!
Model of whole functions (codegen.c:4039-4177 `emit_text`) with parameters of integer type, and of
calls as statements.

Simplifications: the function is not variadic, is not `main`, returns an integer or nothing, has no
variable-length arrays, and no local variable is aligned to more than 16; so `lvar_ptr` is %rbp. The
offsets that `assign_lvar_offsets` (Model/LocalVars) gives to variables and to the temporaries of
calls are data here. A call is a statement `f(args);` or `x = f(args);`, where `x` is not `bool`.
-/
set_option autoImplicit false
namespace Slimcc.Gen
open Slimcc.Ty Slimcc.Spec Slimcc.X86
open Slimcc.CC (Slot conv alignTo)

/-- Where the local variables of a function are: the offset of each variable and register parameter,
of the local variable of argument `i` of the call `site` (codegen.c:4180-4211), and `lvar_stk_sz`. -/
structure Frame where
  ofs : Nat → Int
  temp : Nat → Nat → Int
  stk : Nat

section
variable (Γ : Nat → Spec.CTy) (glob : Nat → Bool) (f : FnDef) (fr : Frame)

/-- codegen.c:4059: `calling_convention` on the parameters. -/
def paramSlots : List (Nat × Slot) :=
  f.params.zip (conv (f.params.map fun x => .scalar (.int (ity (Γ x)).size) (ity (Γ x)).size) { gp := 0, fp := 0 }).1

/-- codegen.c:3838-3845 `assign_lvar_offsets`: a parameter passed on the stack stays there; the other
local variables have their offsets. Global variables are accessed by name. -/
def fnLoc (x : Nat) : MemOp :=
  if glob x then .sym x
  else match (paramSlots Γ f).lookup x with
    | some (.onStack o) => .frame (o + 16)
    | _ => .frame (fr.ofs x)

/-- codegen.c:4120-4152: register parameters are stored (`store_gp` for sizes 1, 2, 4, 8 is one
`mov`). -/
def paramStores : List (Nat × Slot) → Nat → List Ins
  | (x, .inRegs) :: l, gp => .mov (ity (Γ x)).size (.reg (argReg gp)) (.mem (.frame (fr.ofs x))) :: paramStores l (gp + 1)
  | (_, .onStack _) :: l, gp => paramStores l gp
  | [], _ => []

end

section
variable (hs : HostShift) (opt : Bool) (Γ : Nat → Spec.CTy) (loc : Nat → MemOp) (stk : Nat)

/-- The call in a statement: no buffer, not variadic, by name. -/
def siteOf (c : CallS) : Site := ⟨c.args, none, none, false⟩

/-- codegen.c:1460-1530, 1769-1782: the call with its instruction. -/
def callCode (temp : Nat → Nat → Int) (c : CallS) (rt : Option ITy) : G := fun lab =>
  let (p, lab) := funcall hs opt Γ loc stk (siteOf c) (temp c.site) rt lab
  (⟨p.before.code ++ .call c.fn :: p.after.map .ins, p.before.gp, p.before.st⟩, lab)

/-- codegen.c:2213-2215 with 2337-2420 `gen_void_expr`: `f(args);` or `x = f(args);`. The result is
converted to the type of `x` (parse.c:346-382 `new_cast`: not at all if the types are the same, with
optimization); `rets` are the types of the functions. -/
def callStmt (rets : Nat → Spec.CTy) (temp : Nat → Nat → Int) (c : CallS) : G :=
  match c.dst with
  | none => callCode hs opt Γ loc stk temp c none
  | some x =>
    setVar loc stk opt (ity (Γ x)) x
      (callCode hs opt Γ loc stk temp c (some (ity (rets c.fn))) ;;
        inss (if opt && decide (ity (rets c.fn) = ity (Γ x)) then [] else castIns (ity (rets c.fn)) (ity (Γ x))))

end

section
variable (hs : HostShift) (opt : Bool) (P : Prog)

/-- The type of a function's result. -/
def Prog.rets (g : Nat) : Spec.CTy :=
  match P.fn g with
  | some f => f.rty
  | none => .int

/-- The body of a function. -/
def fnBody (f : FnDef) (fr : Frame) (id c : Nat) : Option Out :=
  compileFn hs opt P.Γ (fnLoc P.Γ P.glob f fr) fr.stk
    (callStmt hs opt P.Γ (fnLoc P.Γ P.glob f fr) fr.stk (Prog.rets P) fr.temp) f.rty f.body id c

/-- codegen.c:4118, 4157-4158 with 355-363: the size of the frame, for `k` slots. -/
def frameSize (fr : Frame) (k : Nat) : Nat := alignTo (fr.stk + 8 * k) 16

/-- codegen.c:4067-4076, 4120-4158: the beginning of a function. -/
def prologue (f : FnDef) (fr : Frame) (k : Nat) : List Line :=
  [.push .bp, .ins (.mov 8 (.reg .sp) (.reg .bp))] ++
    (if fr.stk + 8 * k ≠ 0 then [.ins (.alu .sub 8 (.imm (BitVec.ofNat 64 (frameSize fr k))) (.reg .sp))] else []) ++
    (paramStores P.Γ fr (paramSlots P.Γ f) 0).map .ins

/-- codegen.c:4039-4177 `emit_text`; the label of the epilogue is the last line of the body. `none` if
the parser rejects the function. -/
def fnCode (f : FnDef) (fr : Frame) (id c : Nat) : Option (List Line) :=
  (fnBody hs opt P f fr id c).map fun o => prologue P f fr o.st ++ o.code ++ [.leave, .ret]

end
end Slimcc.Gen
