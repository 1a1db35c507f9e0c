/-
Register assignment for inline assembly, codegen.c:2990-3359.

Simplifications, for the whole file:
* An operand's expression is reduced to what the code asks of it: whether it is
  an integer constant expression, whether it is directly addressable
  (`has_memop`), and the register of a register variable.
* The operand array is a function from positions; positions `0 … nOut-1` are
  the outputs, the rest the inputs, as `asm_fill_ops` pushes them.
* A number in a constraint is not cut to an `int`.
* Only the registers are modelled, not the text that is printed.
-/
set_option autoImplicit false

namespace Slimcc.Asm

/-- `Reg`, codegen.c:12-55; the number is the enumerator's value. -/
abbrev Reg := Nat

def rAX : Reg := 1
def rCX : Reg := 2
def rDX : Reg := 3
def rSI : Reg := 4
def rDI : Reg := 5
def rR8 : Reg := 6
def rR9 : Reg := 7
def rR10 : Reg := 8
def rR11 : Reg := 9
def rR12 : Reg := 10
def rR15 : Reg := 13
def rBX : Reg := 14
def rBP : Reg := 15
def rSP : Reg := 16
def rXMM0 : Reg := 17
def rXMM15 : Reg := 32
def rST0 : Reg := 33
def rST1 : Reg := 34
def rST7 : Reg := 40
def rEND : Reg := 41

/-- `is_gp_reg`, codegen.c:3022-3024. -/
def isGp (r : Reg) : Bool := rAX ≤ r && r ≤ rSP
/-- `is_xmm_reg`, codegen.c:3026-3028. -/
def isXmm (r : Reg) : Bool := rXMM0 ≤ r && r ≤ rXMM15
/-- `is_x87_reg`, codegen.c:3030-3032. -/
def isX87 (r : Reg) : Bool := rST0 ≤ r && r ≤ rST7

/-- `AsmOpKind`, slimcc.h:321-330; `none` is the zero of a fresh operand. -/
inductive Kind where
  | none | num | sym | mem | reg | flag
  deriving DecidableEq, Repr

/-- What the code asks about an operand's expression. -/
structure Arg where
  constInt : Bool := false
  memop : Bool := false
  varReg : Option Reg := Option.none
  deriving DecidableEq, Repr

/-- `AsmParam`, slimcc.h:333-355. -/
structure Op where
  cons : List Char
  arg : Arg
  kind : Kind := .none
  mtch : Option Nat := Option.none
  reg : Reg := 0
  isMem : Bool := false
  gp : Bool := false
  fp : Bool := false
  x87 : Bool := false
  early : Bool := false
  high : Bool := false
  legacy : Bool := false
  free : Bool := false
  deriving DecidableEq, Repr

/-- A clobber, as `ident_reg` codegen.c:3052-3074 tells them apart by name:
`"cc"`, `"memory"`, a general register, a vector register by number (`xmm`,
`ymm`, `zmm`), an x87 register by number. -/
inductive Clob where
  | cc | memory | gp (r : Reg) | vec (n : Nat) | st (n : Nat)
  deriving DecidableEq, Repr

/-- `asm_ops` and `asm_use`. -/
structure St where
  cnt : Nat
  ops : Nat → Op
  inU : Reg → Bool
  outU : Reg → Bool

/-- Why no assignment is made: an `error_tok`, or behaviour C leaves undefined.
The failure to place an operand keeps the operand and the state. -/
inductive Stop where
  | conflicting | unknownConstraint | mismatch | badMatch | outOfRegs
  | cannotAssign (i : Nat) (s : St)
  | undefined

abbrev Res (α : Type) := Except Stop α

def setAt {α : Type} (f : Nat → α) (i : Nat) (a : α) : Nat → α :=
  fun j => if j = i then a else f j

/-- `ident_reg` for clobbers, codegen.c:3052-3074. -/
def identReg : Clob → Option Reg
  | .cc | .memory => none
  | .gp r => some r
  | .vec n => some (rXMM0 + n)
  | .st n => some (rST0 + min n 7)

/-- `asm_clobbers`, codegen.c:3076-3098.  Writing beyond `asm_use.in[REG_END]`
is undefined. -/
def clobberOne (c : Clob) (s : St) : Res St :=
  match identReg c with
  | none => .ok s
  | some r =>
    if r = rSP then .ok s
    else if isX87 r then .ok s
    else if rEND ≤ r then .error .undefined
    else .ok { s with inU := setAt s.inU r true, outU := setAt s.outU r true }

def clobbers : List Clob → St → Res St
  | [], s => .ok s
  | c :: cs, s => do
    let s ← clobberOne c s
    clobbers cs s

/-- The first character of a constraint. -/
def mark (o : Op) : Option Char := o.cons.head?

/-- `has_matching`, codegen.c:3100-3102. -/
def hasMatching (s : St) (o : Op) : Bool :=
  match o.mtch with
  | none => false
  | some j => (s.ops j).kind == .none

/-- `asm_get_use`, codegen.c:3104-3113. -/
def getUse (s : St) (o : Op) (r : Reg) : Bool :=
  if mark o ≠ some '=' ∧ mark o ≠ some '+' then s.inU r
  else if mark o = some '=' ∧ o.kind = .reg ∧ o.early = false ∧ hasMatching s o = false then
    s.outU r
  else s.inU r || s.outU r

/-- `asm_set_use`, codegen.c:3115-3132, for the operand at `i`. -/
def setUse (s : St) (i : Nat) : St :=
  let o := s.ops i
  if mark o ≠ some '=' ∧ mark o ≠ some '+' then
    { s with inU := setAt s.inU o.reg true }
  else if mark o = some '=' ∧ o.kind = .reg ∧ o.early = false ∧ hasMatching s o = false then
    { s with outU := setAt s.outU o.reg true }
  else
    let s' := { s with inU := setAt s.inU o.reg true, outU := setAt s.outU o.reg true }
    match o.mtch with
    | none => s'
    | some j =>
      if (s.ops j).kind = .none then
        { s' with ops := setAt s.ops j { s.ops j with kind := .reg, reg := o.reg } }
      else s'

/-- What reading a constraint string collects: the operand's flags and the
local variables of `asm_constraint`. -/
structure Scan where
  o : Op
  reg : Option Reg := none
  idx : Option Nat := none
  isNum : Bool := false
  isSym : Bool := false
  inDigits : Bool := false

/-- `fixed_reg`, codegen.c:3134-3138. -/
def fixedReg (sc : Scan) (r : Reg) : Res Scan :=
  match sc.reg with
  | some r' => if r' ≠ r then .error .conflicting else .ok { sc with reg := some r }
  | none => .ok { sc with reg := some r }

/-- One character of the loop in `asm_constraint`, codegen.c:3155-3194.
`strtoul` reads a run of digits at once; here the flag `inDigits` says that the
previous character belonged to the run. -/
def scanChar (sc : Scan) (c : Char) : Res Scan :=
  if c.isDigit then
    let d := c.toNat - '0'.toNat
    .ok { sc with idx := some (if sc.inDigits then 10 * sc.idx.getD 0 + d else d),
                  inDigits := true }
  else
    let sc := { sc with inDigits := false }
    match c with
    | '=' | '+' => .ok sc
    | '&' => .ok { sc with o := { sc.o with early := true } }
    | 'm' | 'o' => .ok { sc with o := { sc.o with isMem := true } }
    | 'r' | 'q' => .ok { sc with o := { sc.o with gp := true } }
    | 'Q' => .ok { sc with o := { sc.o with high := true } }
    | 'R' => .ok { sc with o := { sc.o with legacy := true } }
    | 'U' => .ok { sc with o := { sc.o with free := true } }
    | 'n' | 'I' | 'J' | 'K' | 'L' | 'M' | 'N' | 'O' | 'P' => .ok { sc with isNum := true }
    | 'i' => .ok { sc with isNum := true, isSym := true }
    | 'x' | 'v' => .ok { sc with o := { sc.o with fp := true } }
    | 'f' => .ok { sc with o := { sc.o with x87 := true } }
    | 'X' => .ok { sc with o := { sc.o with fp := true, isMem := true, gp := true }, isNum := true }
    | 'g' => .ok { sc with o := { sc.o with isMem := true, gp := true }, isNum := true }
    | 'a' => fixedReg sc rAX
    | 'b' => fixedReg sc rBX
    | 'c' => fixedReg sc rCX
    | 'd' => fixedReg sc rDX
    | 'S' => fixedReg sc rSI
    | 'D' => fixedReg sc rDI
    | 't' => fixedReg sc rST0
    | 'u' => fixedReg sc rST1
    | _ => .error .unknownConstraint

def scanAll : List Char → Scan → Res Scan
  | [], sc => .ok sc
  | c :: cs, sc => do
    let sc ← scanChar sc c
    scanAll cs sc

/-- The register-variable part, codegen.c:3207-3213. -/
def scanVar (sc : Scan) : Res Scan :=
  match sc.o.arg.varReg with
  | none => .ok sc
  | some r =>
    if (isGp r && !sc.o.gp) || (isXmm r && !sc.o.fp) || (isX87 r && !sc.o.x87) then
      .error .mismatch
    else fixedReg sc r

/-- The body of `asm_constraint`, codegen.c:3140-3231, for the operand at `i`.
SIMPLIFICATION: `is_clobbered_x87`, which only counts stack slots, is left
out. -/
def constraintOne (i : Nat) (s : St) : Res St := do
  let o := s.ops i
  if o.cons.take 4 = ['=', '@', 'c', 'c'] then
    return { s with ops := setAt s.ops i { o with kind := .flag } }
  let sc ← scanAll o.cons { o := o }
  if sc.isNum && o.arg.constInt then
    return { s with ops := setAt s.ops i { sc.o with kind := .num } }
  if sc.isSym then
    return { s with ops := setAt s.ops i { sc.o with kind := .sym } }
  if sc.o.isMem && o.arg.memop then
    return { s with ops := setAt s.ops i { sc.o with kind := .mem } }
  let sc ← scanVar sc
  match sc.reg with
  | some r => return setUse { s with ops := setAt s.ops i { sc.o with reg := r, kind := .reg } } i
  | none =>
    let s := { s with ops := setAt s.ops i sc.o }
    match sc.idx with
    | none => return s
    | some k =>
      if s.cnt ≤ k then .error .badMatch
      else return { s with ops := setAt s.ops k { s.ops k with mtch := some i } }

def constraintAll : List Nat → St → Res St
  | [], s => .ok s
  | i :: is, s => do
    let s ← constraintOne i s
    constraintAll is s

/-- Give the operand at `i` the register `r`. -/
def place (s : St) (i : Nat) (k : Kind) (r : Reg) : St :=
  setUse { s with ops := setAt s.ops i { s.ops i with reg := r, kind := k } } i

/-- `asm_assign_oprands2`, codegen.c:3243-3257, for the operand at `i`. -/
def assign2One (regs : List Reg) (sel : Op → Bool) (i : Nat) (s : St) : St :=
  let o := s.ops i
  if o.kind ≠ .none ∨ sel o = false then s
  else match regs.find? (fun r => !getUse s o r) with
    | some r => place s i .reg r
    | none => s

def assign2 (regs : List Reg) (sel : Op → Bool) : List Nat → St → St
  | [], s => s
  | i :: is, s => assign2 regs sel is (assign2One regs sel i s)

/-- The register lists of `asm_assign_oprands`, codegen.c:3260-3263. -/
def highbyteRegs : List Reg := [rAX, rCX, rDX, rBX]
def legacyRegs : List Reg := [rAX, rCX, rDX, rSI, rDI, rBX, rBP]
def freeRegs : List Reg := [rAX, rCX, rDX, rSI, rDI, rR8, rR9, rR10, rR11]

/-- `find_free_reg`, codegen.c:3233-3241: the registers `lo … hi`. -/
def findFree (s : St) (o : Op) (lo hi : Reg) : Option Reg :=
  (List.range' lo (hi + 1 - lo)).find? (fun r => !getUse s o r)

/-- The three attempts of codegen.c:3273-3275, in this order. -/
def findAny (s : St) (o : Op) : Option Reg :=
  match (if o.fp then findFree s o rXMM0 rXMM15 else none) with
  | some r => some r
  | none =>
    match (if o.x87 then findFree s o rST0 rST7 else none) with
    | some r => some r
    | none => if o.gp then findFree s o rAX rR15 else none

/-- The last loop of `asm_assign_oprands`, codegen.c:3269-3286. -/
def assignOne (i : Nat) (s : St) : Res St :=
  let o := s.ops i
  if o.kind ≠ .none then .ok s
  else match findAny s o with
    | some r => .ok (place s i .reg r)
    | none =>
      match (if o.isMem then findFree s o rAX rR15 else none) with
      | some r => .ok (place s i .mem r)
      | none => .error (.cannotAssign i s)

def assignAll : List Nat → St → Res St
  | [], s => .ok s
  | i :: is, s => do
    let s ← assignOne i s
    assignAll is s

/-- `asm_assign_oprands`, codegen.c:3259-3287. -/
def assignOperands (s : St) : Res St :=
  let is := List.range s.cnt
  assignAll is (assign2 freeRegs (·.free) is
    (assign2 legacyRegs (·.legacy) is (assign2 highbyteRegs (·.high) is s)))

/-- `acquire_gp`, codegen.c:3289-3299, looking at both sets or at the first
only: the register found. -/
def acquire (use : Reg → Bool) : Res Reg :=
  match (List.range' rAX (rR15 + 1 - rAX)).find? (fun r => !use r) with
  | some r => .ok r
  | none => .error .outOfRegs

/-- What `prepare_inline_asm` decides. -/
structure Plan where
  st : St
  alt1 : Option Reg
  alt2 : Option Reg
  tmp : Option Reg
  saved : Reg → Bool

def both (s : St) (r : Reg) : St :=
  { s with inU := setAt s.inU r true, outU := setAt s.outU r true }

/-- An alternative frame pointer when `r` is in use, codegen.c:3323-3326. -/
def altFor (r : Reg) (s : St) : Res (Option Reg × St) :=
  if s.inU r || s.outU r then do
    let a ← acquire (fun x => s.inU x || s.outU x)
    return (some a, both s a)
  else return (none, s)

/-- The scratch register for storing outputs, codegen.c:3328-3335. -/
def tmpFor (nOut : Nat) (alt1 alt2 : Option Reg) (s : St) : Res (Option Reg × St) :=
  if nOut = 0 then return (none, s)
  else if alt1.isSome && !s.outU rBP then return (some rBP, s)
  else if alt2.isSome && !s.outU rBX then return (some rBX, s)
  else do
    let r ← acquire s.outU
    return (some r, { s with outU := setAt s.outU r true })

/-- The operands before anything is decided. -/
def initial (outs ins : List (List Char × Arg)) : St :=
  let l := outs ++ ins
  { cnt := l.length
    ops := fun i => match l[i]? with
      | some (c, a) => { cons := c, arg := a }
      | none => { cons := [], arg := {} }
    inU := fun _ => false
    outU := fun _ => false }

/-- Everything before `asm_assign_oprands`: clobbers, then the inputs'
constraints, then the outputs', codegen.c:3311-3319. -/
def readOperands (outs ins : List (List Char × Arg)) (cl : List Clob) : Res St := do
  let s ← clobbers cl (initial outs ins)
  let s ← constraintAll (List.range' outs.length ins.length) s
  constraintAll (List.range outs.length) s

/-- `prepare_inline_asm`, codegen.c:3311-3341: registers only. -/
def prepare (outs ins : List (List Char × Arg)) (cl : List Clob) : Res Plan := do
  let s ← readOperands outs ins cl
  let s ← assignOperands s
  let (a₁, s) ← altFor rBP s
  let (a₂, s) ← altFor rBX s
  let (t, s) ← tmpFor outs.length a₁ a₂ s
  return { st := s, alt1 := a₁, alt2 := a₂, tmp := t
           saved := fun r => (rR12 ≤ r && r ≤ rBP) && (s.inU r || s.outU r) }

end Slimcc.Asm
