/-!
The temporaries of the code generator (codegen.c): values saved while another operand is evaluated.

`push_tmpstack` reserves a line of the output; `pop_tmpstack` decides, from what happened in between,
where the value is kept, and the reserved line becomes the instruction that saves it there.

Simplifications: C `int` depths and offsets are unbounded naturals; an instruction is represented by the
place it saves to or reads from; instructions that neither use temporaries nor clobber registers
holding them are left out.
-/
set_option autoImplicit false
namespace Slimcc.Tmp

/-- codegen.c:116-120 `SlotKind`. -/
inductive Kind where
  | gp | fp | st
  deriving DecidableEq, Repr

/-- codegen.c:122-130 `Slot`, without the register name; `loc` is the reserved line. -/
structure Slot where
  kind : Kind
  gp : Nat
  fp : Nat
  st : Nat
  loc : Nat
  deriving DecidableEq, Repr

/-- Where a value is kept: the `i`-th of the registers for temporaries (`tmpreg64`, codegen.c:86),
`%xmm(i+2)` (codegen.c:425), or `8 * sz` bytes of the frame starting `ofs` bytes below the frame pointer. -/
inductive Loc where
  | gp (i : Nat)
  | fp (i : Nat)
  | mem (ofs sz : Nat)
  deriving DecidableEq, Repr

/-- Lines of output. `call` stands for a call or an inline assembly statement (codegen.c:1522, 3815) and the
TLS address calls (729, 735); `args n` for code using the first `n` registers for temporaries as argument
registers (codegen.c:1511-1512). -/
inductive Line where
  | reserved
  | save (l : Loc)
  | load (l : Loc)
  | call
  | args (n : Nat)
  deriving DecidableEq, Repr

/-- The options and the frame: `reuse` is `opt_reuse_stack && !current_fn->dont_reuse_stk`, `lvar` is `lvar_stk_sz`. -/
structure Cfg where
  reuse : Bool
  lvar : Nat

/-- codegen.c:6-7. -/
def gpSlots : Nat := 6
def fpSlots : Nat := 6

/-- `tmp_stack` (top first), `peak_stk_usage` and the output. -/
structure State where
  stack : List Slot
  peak : Nat
  out : List Line
  deriving DecidableEq, Repr

inductive Op where
  | push (k : Kind)
  | pop (sz : Nat)
  | call
  | args (n : Nat)
  deriving DecidableEq, Repr

/-- codegen.c:317-320 `clobber_all_regs`. -/
def clobberAll (l : List Slot) : List Slot := l.map fun s => { s with kind := .st }

/-- codegen.c:322-327 `clobber_gp`. -/
def clobberGp (n : Nat) : List Slot → List Slot
  | s :: r => { s with gp := max s.gp n } :: r
  | [] => []

/-- codegen.c:346-348: too deep for a register. -/
def Slot.settle (s : Slot) : Slot :=
  if (s.kind = .gp ∧ s.gp ≥ gpSlots) ∨ (s.kind = .fp ∧ s.fp ≥ fpSlots) then { s with kind := .st } else s

/-- codegen.c:350-355: what the slot below learns. -/
def bump (s : Slot) (sz : Nat) : List Slot → List Slot
  | s2 :: r => { s2 with
      gp := max s2.gp (s.gp + if s.kind = .gp then 1 else 0)
      fp := max s2.fp (s.fp + if s.kind = .fp then 1 else 0)
      st := max s2.st (s.st + (if s.kind = .st then 1 else 0) * sz) } :: r
  | [] => []

/-- codegen.c:357-366 and the callers 387-396, 424-434, 449-454: where the value is. -/
def place (c : Cfg) (peak : Nat) (s : Slot) (sz : Nat) : Loc × Nat :=
  match s.kind with
  | .gp => (.gp s.gp, peak)
  | .fp => (.fp s.fp, peak)
  | .st =>
    if !c.reuse then (.mem (peak + sz * 8) sz, peak + sz * 8)
    else
      let bottom := c.lvar + (s.st + sz) * 8
      (.mem bottom sz, max peak bottom)

/-- One operation; `none` is the failed assertion of codegen.c:343.
`push_tmpstack` 329-339, `pop_tmpstack` 341-368 with the lines printed by its callers. -/
def step (c : Cfg) (σ : State) : Op → Option State
  | .push k => some { σ with stack := ⟨k, 0, 0, 0, σ.out.length⟩ :: σ.stack, out := σ.out ++ [.reserved] }
  | .pop sz =>
    match σ.stack with
    | [] => none
    | s0 :: rest =>
      let s := s0.settle
      let p := place c σ.peak s sz
      some ⟨bump s sz rest, p.2, σ.out.set s.loc (.save p.1) ++ [.load p.1]⟩
  | .call => some { σ with stack := clobberAll σ.stack, out := σ.out ++ [.call] }
  | .args n => some { σ with stack := clobberGp n σ.stack, out := σ.out ++ [.args n] }

def run (c : Cfg) : List Op → State → Option State
  | [], σ => some σ
  | o :: r, σ => (step c σ o).bind (run c r)

end Slimcc.Tmp
