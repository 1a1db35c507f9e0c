import Verif.Model.Expr
/-!
The part of x86-64 that the code generator uses for integer code: registers, byte-addressed
memory, the flags of the last comparison, and a flat program with labels.

This is the semantics of the target, not of anything in /repo; it follows the manuals of the
processor. Simplifications: the registers are the ones codegen.c uses for integer expressions;
`bp` stands for the register named by `lvar_ptr` (%rbp or %rbx, codegen.c:89); an instruction other
than a comparison leaves the flags unknown (`none`), and using unknown flags is stuck; every
address is readable and writable; the assembler's name resolution (a label has the position of its
definition) is part of the semantics.
-/
set_option autoImplicit false
namespace Slimcc.X86
open Slimcc.Ty (ShKind)

abbrev Word := BitVec 64

/-- %rax, %rcx, %rdx, the frame register, %rsp, and the temporaries of codegen.c:85-86 by index:
%rdi, %rsi, %r8, %r9, %r10, %r11. -/
inductive Reg where
  | ax | cx | dx | bp | sp
  | tmp (i : Nat)
  deriving DecidableEq, Repr

/-- Address operands: `ofs(%rbp)`, `symbol(%rip)`, `(%reg)`, `ofs(%reg)`. -/
inductive MemOp where
  | frame (ofs : Int)
  | sym (g : Nat)
  | ind (r : Reg)
  | off (r : Reg) (ofs : Int)
  deriving DecidableEq, Repr

inductive Opd where
  | reg (r : Reg)
  | imm (v : Word)
  | mem (m : MemOp)
  deriving DecidableEq, Repr

/-- Condition codes. -/
inductive CC where
  | e | ne | l | le | g | ge | b | be | a | ae
  deriving DecidableEq, Repr

inductive Alu where
  | add | sub | imul | and | or | xor
  deriving DecidableEq, Repr

inductive Un where
  | neg | not | inc | dec
  deriving DecidableEq, Repr

/-- A shift count: `%cl` or an immediate. -/
inductive Cnt where
  | cl
  | imm (n : Nat)
  deriving DecidableEq, Repr

/-- Instructions; `sz` is the operand size in bytes, operands in the order of the assembler
(source, destination). -/
inductive Ins where
  | mov (sz : Nat) (src dst : Opd)
  /-- movz/movs from `fr` bytes to `sz` bytes. -/
  | movx (sgn : Bool) (fr sz : Nat) (src : Opd) (dst : Reg)
  | lea (m : MemOp) (dst : Reg)
  | alu (op : Alu) (sz : Nat) (src dst : Opd)
  | cmp (sz : Nat) (src dst : Opd)
  | test (sz : Nat) (src dst : Opd)
  | un (op : Un) (sz : Nat) (dst : Reg)
  | shft (k : ShKind) (sz : Nat) (c : Cnt) (dst : Reg)
  /-- cdq, cqo -/
  | cdq (sz : Nat)
  /-- div, idiv -/
  | div (sgn : Bool) (sz : Nat) (src : Reg)
  | xchg (sz : Nat) (a b : Reg)
  | set (c : CC) (dst : Reg)
  | cmov (c : CC) (sz : Nat) (src dst : Reg)
  deriving DecidableEq, Repr

/-- Labels: the prefixes of codegen.c (`.L.short.`, `.L.fall.`, `.L.else.`, `.L.end.`,
`.L.begin.`, `.L.rtn.`) with a number, and the names made by the parser (`.L..`). -/
inductive Label where
  | short (n : Nat) | fall (n : Nat) | else_ (n : Nat) | end_ (n : Nat) | begin (n : Nat) | rtn (n : Nat)
  | name (n : Nat)
  deriving DecidableEq, Repr

inductive Line where
  | ins (i : Ins)
  | lab (l : Label)
  | jmp (l : Label)
  | jcc (c : CC) (l : Label)
  /-- `je 1f`, where the label `1:` stands after the next line. -/
  | jeOver
  /-- An instruction whose memory operand is an object shared with other threads. -/
  | shared (i : Ins)
  /-- `lock cmpxchg %src, (%addr)` and `xchg %src, (%addr)` on a shared object. -/
  | cmpxchg (sz : Nat) (src addr : Reg)
  | xchgm (sz : Nat) (src addr : Reg)
  /-- `push`, `leave`, `call` of a function by name, and `ret`. -/
  | push (r : Reg)
  | leave
  | call (f : Nat)
  | ret
  deriving DecidableEq, Repr

/-- Zero- and sign-extension of the low `n` bytes. -/
def zx (n : Nat) (x : Word) : Word := (x.setWidth (8 * n)).setWidth 64
def sx (n : Nat) (x : Word) : Word := (x.setWidth (8 * n)).signExtend 64

/-- The outcome of the last comparison: equal, below (unsigned), less (signed). -/
structure Flags where
  eq : Bool
  ult : Bool
  slt : Bool
  deriving DecidableEq, Repr

def CC.holds (c : CC) (f : Flags) : Bool :=
  match c with
  | .e => f.eq
  | .ne => !f.eq
  | .l => f.slt
  | .le => f.slt || f.eq
  | .g => !(f.slt || f.eq)
  | .ge => !f.slt
  | .b => f.ult
  | .be => f.ult || f.eq
  | .a => !(f.ult || f.eq)
  | .ae => !f.ult

structure St where
  r : Reg → Word
  m : Word → BitVec 8
  f : Option Flags

/-- Little-endian read of `n` bytes, zero-extended. -/
def rd (m : Word → BitVec 8) (a : Word) : Nat → Word
  | 0 => 0
  | n + 1 => rd m a n ||| ((m (a + BitVec.ofNat 64 n)).setWidth 64 <<< (8 * n))

/-- Little-endian write of the low `n` bytes of `v`. -/
def wr (m : Word → BitVec 8) (a : Word) (n : Nat) (v : Word) : Word → BitVec 8 :=
  fun b => if (b - a).toNat < n then (v >>> (8 * (b - a).toNat)).setWidth 8 else m b

/-- Writing `sz` bytes of a register: 32-bit writes clear the upper half, 8- and 16-bit writes keep
the rest. -/
def put (sz : Nat) (old new : Word) : Word :=
  if sz = 8 then new
  else if sz = 4 then zx 4 new
  else (old >>> (8 * sz)) <<< (8 * sz) ||| zx sz new

def St.setR (s : St) (r : Reg) (v : Word) : St := { s with r := fun q => if q = r then v else s.r q }

/-- `push`: the stack grows downwards. -/
def St.push (s : St) (v : Word) : St :=
  { s with r := fun q => if q = .sp then s.r .sp - 8 else s.r q, m := wr s.m (s.r .sp - 8) 8 v }

/-- `leave`: the stack pointer becomes the frame pointer, and the frame pointer is popped. -/
def St.leave (s : St) : St :=
  { s with r := fun q => if q = .sp then s.r .bp + 8 else if q = .bp then rd s.m (s.r .bp) 8 else s.r q }

section
variable (sym : Nat → Word)

/-- The address of an operand; `sym` gives the addresses of symbols. -/
def ea (s : St) : MemOp → Word
  | .frame ofs => s.r .bp + BitVec.ofInt 64 ofs
  | .sym g => sym g
  | .ind r => s.r r
  | .off r ofs => s.r r + BitVec.ofInt 64 ofs

/-- The low `sz` bytes of an operand, zero-extended. -/
def get (s : St) (sz : Nat) : Opd → Word
  | .reg r => zx sz (s.r r)
  | .imm v => zx sz v
  | .mem m => rd s.m (ea sym s m) sz

/-- Assignment to an operand; an immediate is no destination. -/
def put' (s : St) (sz : Nat) (v : Word) : Opd → Option St
  | .reg r => some (s.setR r (put sz (s.r r) v))
  | .imm _ => none
  | .mem m => some { s with m := wr s.m (ea sym s m) sz v }

def aluOp : Alu → Word → Word → Word
  | .add, x, y => x + y
  | .sub, x, y => x - y
  | .imul, x, y => x * y
  | .and, x, y => x &&& y
  | .or, x, y => x ||| y
  | .xor, x, y => x ^^^ y

def unOp : Un → Word → Word
  | .neg, x => -x
  | .not, x => ~~~x
  | .inc, x => x + 1
  | .dec, x => x - 1

/-- Shift of the low `sz` bytes by a count already masked. -/
def shOp (k : ShKind) (sz : Nat) (x : Word) (n : Nat) : Word :=
  match k with
  | .shl => x <<< n
  | .shr => zx sz x >>> n
  | .sar => (sx sz x).sshiftRight n

def St.noFlags (s : St) : St := { s with f := none }

/-- The flags after comparing `x` with `y` (the first operand of the subtraction first). -/
def cmpFlags (sz : Nat) (x y : Word) : Flags :=
  ⟨zx sz x == zx sz y, (zx sz x).ult (zx sz y), (sx sz x).slt (sx sz y)⟩

/-- The flags after `test`: the carry and overflow flags are cleared. -/
def testFlags (sz : Nat) (x : Word) : Flags := ⟨zx sz x == 0, false, (sx sz x).slt 0⟩

/-- Division of the double-width dividend `hi:lo` (`sz` is 4 or 8); `none` is the divide error. -/
def divide (sgn : Bool) (sz : Nat) (hi lo d : Word) : Option (Word × Word) :=
  if sgn then
    let n := (sx sz hi).toInt * 2 ^ (8 * sz) + (zx sz lo).toNat
    let q := n.tdiv (sx sz d).toInt
    if (sx sz d).toInt = 0 then none
    else if -2 ^ (8 * sz - 1) ≤ q ∧ q < 2 ^ (8 * sz - 1) then
      some (BitVec.ofInt 64 q, BitVec.ofInt 64 (n.tmod (sx sz d).toInt))
    else none
  else
    let n := (zx sz hi).toNat * 2 ^ (8 * sz) + (zx sz lo).toNat
    let q := n / (zx sz d).toNat
    if (zx sz d).toNat = 0 then none
    else if q < 2 ^ (8 * sz) then some (BitVec.ofNat 64 q, BitVec.ofNat 64 (n % (zx sz d).toNat))
    else none

/-- One instruction; `none` is stuck or a fault. -/
def exec (i : Ins) (s : St) : Option St :=
  match i with
  | .mov sz src dst => put' sym s sz (get sym s sz src) dst
  | .movx sgn fr sz src dst =>
    let v := get sym s fr src
    some (s.setR dst (put sz (s.r dst) (if sgn then sx fr v else v)))
  | .lea m dst => some (s.setR dst (ea sym s m))
  | .alu op sz src dst =>
    (put' sym s sz (aluOp op (get sym s sz dst) (get sym s sz src)) dst).map St.noFlags
  | .cmp sz src dst => some { s with f := some (cmpFlags sz (get sym s sz dst) (get sym s sz src)) }
  | .test sz src dst => some { s with f := some (testFlags sz (get sym s sz dst &&& get sym s sz src)) }
  | .un op sz dst => some (s.setR dst (put sz (s.r dst) (unOp op (s.r dst)))).noFlags
  | .shft k sz c dst =>
    let n := match c with
      | .cl => (s.r .cx).toNat % (if sz = 8 then 64 else 32)
      | .imm n => n % (if sz = 8 then 64 else 32)
    some (s.setR dst (put sz (s.r dst) (shOp k sz (s.r dst) n))).noFlags
  | .cdq sz => some (s.setR .dx (put sz (s.r .dx) ((sx sz (s.r .ax)).sshiftRight 63)))
  | .div sgn sz src =>
    match divide sgn sz (s.r .dx) (s.r .ax) (s.r src) with
    | some (q, rm) => some ((s.setR .ax (put sz (s.r .ax) q)).setR .dx (put sz (s.r .dx) rm)).noFlags
    | none => none
  | .xchg sz a b =>
    some ((s.setR a (put sz (s.r a) (zx sz (s.r b)))).setR b (put sz (s.r b) (zx sz (s.r a))))
  | .set c dst =>
    match s.f with
    | some f => some (s.setR dst (put 1 (s.r dst) (if c.holds f then 1 else 0)))
    | none => none
  | .cmov c sz src dst =>
    match s.f with
    | some f => some (s.setR dst (put sz (s.r dst) (if c.holds f then s.r src else s.r dst)))
    | none => none

/-- Straight-line execution. -/
def execs : List Ins → St → Option St
  | [], s => some s
  | i :: l, s => (exec sym i s).bind (execs l)

/-- Where a label is defined (the first definition; the assembler rejects a second one). -/
def find (p : List Line) (l : Label) : Option Nat :=
  p.findIdx? (fun x => x == .lab l)

/-- One step of a program; a state is the position and the machine state. `none` past the end or
when stuck. Instructions on shared memory are stuck here: they are steps of the machine with several
threads (Model/Atomic). So are `call` and `ret`: they are steps of the machine with several functions
(Model/X86Prog). -/
def step (p : List Line) (c : Nat × St) : Option (Nat × St) :=
  match p[c.1]? with
  | none => none
  | some (.ins i) => (exec sym i c.2).map fun s => (c.1 + 1, s)
  | some (.lab _) => some (c.1 + 1, c.2)
  | some (.jmp l) => (find p l).map fun k => (k, c.2)
  | some (.jcc cc l) =>
    match c.2.f with
    | none => none
    | some f => if cc.holds f then (find p l).map fun k => (k, c.2) else some (c.1 + 1, c.2)
  | some .jeOver =>
    match c.2.f with
    | none => none
    | some f => some (if f.eq then c.1 + 2 else c.1 + 1, c.2)
  | some (.push r) => some (c.1 + 1, c.2.push (c.2.r r))
  | some .leave => some (c.1 + 1, c.2.leave)
  | some (.shared _) | some (.cmpxchg ..) | some (.xchgm ..) | some (.call _) | some .ret => none

/-- `n` steps. -/
def steps (p : List Line) : Nat → Nat × St → Option (Nat × St)
  | 0, c => some c
  | n + 1, c => (step sym p c).bind (steps p n)

end
end Slimcc.X86
