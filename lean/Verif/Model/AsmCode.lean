import Verif.Model.AsmRegs
import Verif.Model.X86
/-!
The code around the text of an `asm` statement (codegen.c:3361-3597, 3733-3824): the operands are
loaded into the registers of the plan (Model/AsmRegs), the text runs, the results are stored.

Simplifications, for the whole file:
* Operands in vector and x87 registers, bit-fields as results, and `asm goto` with results are not
  modelled.
* `asm_gen_operands` (codegen.c:3383-3396), which assigns the values and addresses of operands that are
  not variables to local variables made for them, is not modelled: these local variables are read here.
* `opt_reuse_stack` is on and no temporary is live around the statement.
* Only the instructions used here are modelled, over registers numbered as in Model/AsmRegs.
-/
set_option autoImplicit false
namespace Slimcc.Asm
open Slimcc.X86 (Word rd wr put)

/-- The machine: registers, memory, and which conditions hold. -/
structure Ms where
  r : Reg → Word
  m : Word → BitVec 8
  flag : List Char → Bool

def Ms.set (s : Ms) (r : Reg) (v : Word) : Ms := { s with r := setAt s.r r v }

/-- An operand in memory: an offset from a register, or a symbol. -/
inductive AMem where
  | at_ (ofs : Int) (base : Reg)
  | sym (x : Nat)
  deriving DecidableEq, Repr

/-- `mov` from memory, to memory, between registers, of zero to memory; `set`. -/
inductive AIns where
  | ld (sz : Nat) (a : AMem) (dst : Reg)
  | st (sz : Nat) (src : Reg) (a : AMem)
  | mv (src dst : Reg)
  | zero (sz : Nat) (a : AMem)
  | setc (cc : List Char) (a : AMem)
  deriving DecidableEq, Repr

section
variable (sym : Nat → Word)

def AMem.addr (s : Ms) : AMem → Word
  | .at_ o b => s.r b + BitVec.ofInt 64 o
  | .sym x => sym x

def aexec (s : Ms) : AIns → Ms
  | .ld sz a d => s.set d (put sz (s.r d) (rd s.m (a.addr sym s) sz))
  | .st sz r a => { s with m := wr s.m (a.addr sym s) sz (s.r r) }
  | .mv r d => s.set d (s.r r)
  | .zero sz a => { s with m := wr s.m (a.addr sym s) sz 0 }
  | .setc cc a => { s with m := wr s.m (a.addr sym s) 1 (if s.flag cc then 1 else 0) }

def arun (s : Ms) (l : List AIns) : Ms := l.foldl (aexec sym) s

end

/-- How an operand's object is found: it is a variable (`is_memop`); its address is in a local variable
(`ap->ptr`, codegen.c:3345-3358); its value is in one (`ap->var`). -/
inductive Access where
  | memop (a : AMem)
  | ptr (ofs : Int) (base : Reg)
  | tmp (ofs : Int) (base : Reg)
  deriving DecidableEq, Repr

structure Opnd where
  size : Nat
  acc : Access
  deriving DecidableEq, Repr

section
variable (p : Plan)

/-- codegen.c:3398-3404 `alt_ptr`. -/
def altPtr (b : Reg) : Reg :=
  if b = rBP then p.alt1.getD b else if b = rBX then p.alt2.getD b else b

def altMem : AMem → AMem
  | .at_ o b => .at_ o (altPtr p b)
  | .sym x => .sym x

/-- codegen.c:3406-3423 `asm_gen_ptr`. -/
def genPtr (o : Opnd) (tmp : Reg) : List AIns × AMem :=
  match o.acc with
  | .memop a => ([], altMem p a)
  | .ptr f b => ([.ld 8 (.at_ f (altPtr p b)) tmp], .at_ 0 tmp)
  | .tmp f b => ([], .at_ f (altPtr p b))

/-- The sizes a general register can be moved with, codegen.c:3429-3436, 3457-3464. -/
def gpSize (n : Nat) : Bool := n == 1 || n == 2 || n == 4 || n == 8

/-- codegen.c:3425-3451 `asm_reg_input` for a general register; `none` is the error. -/
def regInput (o : Opnd) (r tmp : Reg) : Option (List AIns) :=
  if gpSize o.size then
    let (l, a) := genPtr p o tmp
    some (l ++ [.ld o.size a r])
  else none

/-- codegen.c:3453-3479 `asm_reg_output` for a general register. -/
def regOutput (o : Opnd) (r tmp : Reg) : Option (List AIns) :=
  if gpSize o.size then
    let (l, a) := genPtr p o tmp
    some (l ++ [.st o.size r a])
  else none

/-- codegen.c:3511-3515 `get_input_reg`. -/
def inputReg (o : Op) : Reg := if o.kind = .reg ∧ mark o ≠ some '=' then o.reg else 0

/-- codegen.c:3525-3533, one turn of the loop of `asm_gp_inputs`; `d` describes the operand, `o` is
what was decided about it. -/
def gpInput (o : Op) (d : Opnd) : Option (List AIns) := do
  let a ← if o.kind = .mem ∧ o.reg ≠ 0 then
      (match d.acc with
       | .ptr f b => some [.ld 8 (.at_ f (altPtr p b)) o.reg]
       | _ => none)
    else some []
  let b ← if isGp (inputReg o) then regInput p d (inputReg o) (inputReg o) else some []
  some (a ++ b)

/-- codegen.c:3576-3597, one turn of the loop of `asm_outputs`; `tmp` is `output_tmp_gp`. -/
def output (tmp : Reg) (o : Op) (d : Opnd) : Option (List AIns) :=
  if o.kind = .reg then
    if isGp o.reg then regOutput p d o.reg tmp else none
  else if o.kind = .flag then
    let (l, a) := genPtr p d tmp
    if gpSize d.size then
      some (l ++ (if d.size ≠ 1 then [.zero d.size a] else []) ++ [.setc (o.cons.drop 4) a])
    else none
  else some []

/-- The code of the operands with the numbers in the list. -/
def each (f : Op → Opnd → Option (List AIns)) (d : Nat → Opnd) : List Nat → Option (List AIns)
  | [] => some []
  | i :: is => do
    let a ← f (p.st.ops i) (d i)
    let b ← each f d is
    some (a ++ b)

/-- codegen.c:3733-3737: the registers of `asm_push_clobbers`. -/
def savedRegs : List Reg := (List.range' rR12 (rR15 + 1 - rR12)).filter p.saved

/-- All registers pushed: those, then `asm_push_frame_ptr` (codegen.c:3761-3764). -/
def pushed : List Reg :=
  savedRegs p ++ (if p.alt1.isSome then [rBP] else []) ++ (if p.alt2.isSome then [rBX] else [])

end

section
variable (p : Plan) (lp : Reg) (stk : Nat)

/-- codegen.c:341-368 `pop_tmpstack`: with `n` registers pushed the offset of the slot of the one with
number `i`; `clobber_all_regs` (codegen.c:3815) has put all of them into the frame. -/
def slotOfs (n i : Nat) : Int := -((stk + (n - i) * 8 : Nat) : Int)

/-- codegen.c:379-398 `pop_gp`: the slot is found from `lvar_ptr` as it is at the pop, which for the frame
pointers is the stand-in. -/
def slotBase (r : Reg) : Reg := if r = rBP ∨ r = rBX then altPtr p lp else lp

def pushOne (n : Nat) (x : Reg × Nat) : AIns := .st 8 x.1 (.at_ (slotOfs stk n x.2) (slotBase p lp x.1))
def popOne (n : Nat) (x : Reg × Nat) : AIns := .ld 8 (.at_ (slotOfs stk n x.2) (slotBase p lp x.1)) x.1

/-- codegen.c:3748-3759: the stand-ins for the frame pointers. -/
def standIns : List AIns :=
  (match p.alt1 with | some a => [.mv rBP a] | none => []) ++ (match p.alt2 with | some a => [.mv rBX a] | none => [])

/-- codegen.c:3789-3792: everything before the text. -/
def before (cnt : Nat) (d : Nat → Opnd) : Option (List AIns) := do
  let n := (pushed p).length
  let k := (savedRegs p).length
  let l := (pushed p).zipIdx.map (pushOne p lp stk n)
  let i ← each p (gpInput p) d (List.range cnt)
  some (l.take k ++ standIns p ++ l.drop k ++ i)

/-- codegen.c:3812-3817: everything after it. Slots are popped from the last to the first. -/
def after (nOut : Nat) (d : Nat → Opnd) : Option (List AIns) := do
  let n := (pushed p).length
  let o ← each p (output p (p.tmp.getD 0)) d (List.range nOut)
  some (o ++ ((pushed p).zipIdx.map (popOne p lp stk n)).reverse)

end
end Slimcc.Asm
