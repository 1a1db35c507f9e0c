import Verif.Model.X86
/-!
Model of the code generator for integer expressions (codegen.c).

The compiler prints assembly text while walking the tree. Here the printed lines are a list, and
what the walk keeps in static variables is made explicit: the label counter is passed along, and
the temporary stack (codegen.c:132-136) is represented by what each piece of code requires of an
enclosing slot, the depths `gp` and `st` that codegen.c:350-355 accumulates. A line reserved by
`push_tmpstack` and filled in by the matching pop is put where it was reserved.

Simplifications: the operands are those of `Model.Expr` (integers, lvalues are variables); a
variable is `ofs(%rbp)` or `symbol(%rip)` (not thread-local and, in position-independent code, not
interposable); slots of temporaries are reused (`-fstack-reuse=all`, the default); no debug info;
a string buffer is never too small (codegen.c:9-10). Recursion on trees that the compiler makes
while it walks is bounded by a measure of the tree.
-/
set_option autoImplicit false
namespace Slimcc.Gen
open Slimcc.Spec (ArOp CmpOp UnOp)
open Slimcc.Ty Slimcc.X86

/-- Lines with the depths they require of an enclosing temporary (codegen.c:122-130). -/
structure Out where
  code : List Line
  gp : Nat
  st : Nat

/-- A piece of code generation: takes the label counter (codegen.c:192-195) and returns it. -/
abbrev G := Nat → Out × Nat

def lines (l : List Line) : G := fun c => (⟨l, 0, 0⟩, c)
def inss (l : List Ins) : G := lines (l.map .ins)

def seq (a b : G) : G := fun c =>
  let (x, c) := a c
  let (y, c) := b c
  (⟨x.code ++ y.code, max x.gp y.gp, max x.st y.st⟩, c)

infixr:65 " ;; " => seq

/-- codegen.c:192-195 `count`. -/
def withLabel (f : Nat → G) : G := fun c => f c (c + 1)

/-- codegen.c:6. -/
def GP_SLOTS : Nat := 6

/-- Where a temporary is kept. -/
inductive TLoc where
  | reg (i : Nat)
  | stk (k : Nat)
  deriving DecidableEq, Repr

/-- codegen.c:345-366 `pop_tmpstack(1)`: the place for a slot with the given depths. -/
def slot (gp st : Nat) : TLoc := if gp < GP_SLOTS then .reg gp else .stk st

/-- codegen.c:329-367: `push`, then `body`, then a pop; the lines of push and pop are known once
the place is. -/
def tmp (push : TLoc → List Ins) (body : G) (pop : TLoc → List Ins) : G := fun c =>
  let (o, c) := body c
  let l := slot o.gp o.st
  (⟨(push l).map .ins ++ o.code ++ (pop l).map .ins,
    o.gp + (match l with | .reg _ => 1 | .stk _ => 0),
    o.st + (match l with | .reg _ => 0 | .stk _ => 1)⟩, c)

section
variable (hs : HostShift) (opt : Bool) (loc : Nat → MemOp) (stkSz : Nat)

/-- codegen.c:362-364: the operand of a stack slot (`lvar_stk_sz` is `stkSz`). -/
def slotMem (k : Nat) : MemOp := .frame (-((stkSz + (k + 1) * 8 : Nat) : Int))

def rsz (r64 : Bool) : Nat := if r64 then 8 else 4

/-- codegen.c:379-398 `pop_gp`: the line inserted where the slot was pushed. -/
def pushIns (r64 : Bool) (src : Reg) : TLoc → List Ins
  | .reg i => [.mov (rsz r64) (.reg src) (.reg (.tmp i))]
  | .stk k => [.mov (rsz r64) (.reg src) (.mem (slotMem stkSz k))]

/-- codegen.c:400-406 `pop_inreg2` with fallback `tmpreg[0]`: the line printed and the register that
holds the value. -/
def popReg : TLoc → Reg
  | .reg i => .tmp i
  | .stk _ => .tmp 0
def popIn (r64 : Bool) : TLoc → List Ins
  | .reg _ => []
  | .stk k => [.mov (rsz r64) (.mem (slotMem stkSz k)) (.reg (.tmp 0))]

/-- codegen.c:408-414 `pop2`. -/
def popTo (r64 : Bool) (dst : Reg) : TLoc → List Ins
  | .reg i => [.mov (rsz r64) (.reg (.tmp i)) (.reg dst)]
  | .stk k => [.mov (rsz r64) (.mem (slotMem stkSz k)) (.reg dst)]

/-- codegen.c:547-555 `regop_ax`: the size of the register used for a type. -/
def rop (t : ITy) : Nat := if t.size = 8 then 8 else 4

/-- codegen.c:501-510 `load_extend_int`. -/
def loadExt (t : ITy) (m : MemOp) (r : Reg) : Ins :=
  if t.size = 1 ∨ t.size = 2 then .movx (!t.uns) t.size 4 (.mem m) r
  else .mov t.size (.mem m) (.reg r)

/-- codegen.c:512-519 `load_extend_int64`. -/
def loadExt64 (t : ITy) (m : MemOp) (r : Reg) : Ins := .movx true t.size 8 (.mem m) r

/-- codegen.c:871-892 `load_val2`, `load_val`. -/
def loadVal (t : ITy) (v : Word) : List Ins :=
  if v = 0 then [.alu .xor 4 (.reg .ax) (.reg .ax)]
  else if v = zx 4 v then [.mov 4 (.imm v) (.reg .ax)]
  else if v = sx 4 v then
    (if t.size = 8 then [.mov 8 (.imm v) (.reg .ax)] else [.mov 4 (.imm v) (.reg .ax)])
  else [.mov 8 (.imm v) (.reg .ax)]

/-- codegen.c:979-1001 `getTypeId` and the integer part of `cast_table` (1085-1095), by size and
sign; `bool` has the row and column of `u64`. -/
inductive TId where
  | i8 | i16 | i32 | i64 | u8 | u16 | u32 | u64
  deriving DecidableEq, Repr

def typeId (t : ITy) : TId :=
  match t.kind with
  | .pchar | .char => if t.uns then .u8 else .i8
  | .short => if t.uns then .u16 else .i16
  | .int => if t.uns then .u32 else .i32
  | .long | .llong => if t.uns then .u64 else .i64
  | .bool => .u64

def i32i8 : List Ins := [.movx true 1 4 (.reg .ax) .ax]
def i32u8 : List Ins := [.movx false 1 4 (.reg .ax) .ax]
def i32i16 : List Ins := [.movx true 2 4 (.reg .ax) .ax]
def i32u16 : List Ins := [.movx false 2 4 (.reg .ax) .ax]
def i32i64 : List Ins := [.movx true 4 8 (.reg .ax) .ax]
def u32i64 : List Ins := [.mov 4 (.reg .ax) (.reg .ax)]

/-- codegen.c:1085-1095, the integer rows and columns. -/
def castTable : TId → TId → List Ins
  | .i8, t => match t with
    | .i8 | .i16 | .i32 | .u32 => [] | .i64 | .u64 => i32i64 | .u8 => i32u8 | .u16 => i32u16
  | .i16, t => match t with
    | .i8 => i32i8 | .i16 | .i32 | .u32 => [] | .i64 | .u64 => i32i64 | .u8 => i32u8 | .u16 => i32u16
  | .i32, t => match t with
    | .i8 => i32i8 | .i16 => i32i16 | .i32 | .u32 => [] | .i64 | .u64 => i32i64 | .u8 => i32u8 | .u16 => i32u16
  | .i64, t => match t with
    | .i8 => i32i8 | .i16 => i32i16 | .i32 | .u32 => [] | .i64 | .u64 => [] | .u8 => i32u8 | .u16 => i32u16
  | .u8, t => match t with
    | .i8 => i32i8 | .i16 | .i32 | .u32 => [] | .i64 | .u64 => i32i64 | .u8 | .u16 => []
  | .u16, t => match t with
    | .i8 => i32i8 | .i16 => i32i16 | .i32 | .u32 => [] | .i64 | .u64 => i32i64 | .u8 => i32u8 | .u16 => []
  | .u32, t => match t with
    | .i8 => i32i8 | .i16 => i32i16 | .i32 | .u32 => [] | .i64 | .u64 => u32i64 | .u8 => i32u8 | .u16 => i32u16
  | .u64, t => match t with
    | .i8 => i32i8 | .i16 => i32i16 | .i32 | .u32 => [] | .i64 | .u64 => [] | .u8 => i32u8 | .u16 => i32u16

/-- codegen.c:1112-1115: the instructions of a conversion to a type other than `bool`. -/
def castIns (fr to : ITy) : List Ins := castTable (typeId fr) (typeId to)

/-- codegen.c:629-639 `cmp_cc`. -/
def cmpCC (op : CmpOp) (uns : Bool) : CC :=
  match op with
  | .eq => .e
  | .ne => .ne
  | .lt => if uns then .b else .l
  | .le => if uns then .be else .le
  | .gt => if uns then .a else .g
  | .ge => if uns then .ae else .ge

/-- codegen.c:641-644 `gen_cmp_setcc`. -/
def setcc (op : CmpOp) (uns : Bool) : List Ins :=
  [.set (cmpCC op uns) .ax, .movx false 1 4 (.reg .ax) .ax]

/-- codegen.c:615-627 `flip_cmp`. -/
def flipCmp (op : CmpOp) (flip : Bool) : CmpOp :=
  if !flip then op
  else match op with
    | .eq => .ne | .ne => .eq | .lt => .ge | .le => .gt | .gt => .le | .ge => .lt

/-- codegen.c:2597-2602: the comparison with the operands exchanged. -/
def swapCmp : CmpOp → CmpOp
  | .eq => .eq | .ne => .ne | .lt => .gt | .le => .ge | .gt => .lt | .ge => .le

/-- codegen.c:2011-2047: the end of a binary operator; `op` holds the left operand, %rax the right. -/
def arithEnd (k : ArOp) (uns : Bool) (sz : Nat) (op : Reg) : List Ins :=
  match k with
  | .add => [.alu .add sz (.reg op) (.reg .ax)]
  | .sub => [.alu .sub sz (.reg .ax) (.reg op), .mov sz (.reg op) (.reg .ax)]
  | .mul => [.alu .imul sz (.reg op) (.reg .ax)]
  | .div => [.xchg sz op .ax] ++
      (if uns then [.alu .xor 4 (.reg .dx) (.reg .dx), .div false sz op] else [.cdq sz, .div true sz op])
  | .mod => [.xchg sz op .ax] ++
      (if uns then [.alu .xor 4 (.reg .dx) (.reg .dx), .div false sz op] else [.cdq sz, .div true sz op]) ++
      [.mov 8 (.reg .dx) (.reg .ax)]
  | .band => [.alu .and sz (.reg op) (.reg .ax)]
  | .bor => [.alu .or sz (.reg op) (.reg .ax)]
  | .bxor => [.alu .xor sz (.reg op) (.reg .ax)]

/-- codegen.c:218-224 `skip_gp_cast`. -/
def skipCast : Node → Node
  | .cast t e => if t.size = e.ty.size ∧ t.kind ≠ .bool then skipCast e else .cast t e
  | n => n

/-- codegen.c:261-267 `is_memop`: the variable if the operand is one, behind casts that keep the
size. -/
def memop (n : Node) : Option Nat :=
  match skipCast n with
  | .var _ x => some x
  | _ => none

/-- codegen.c:298-305 `limit_imm`. -/
def limitImm (v : Word) (sz : Nat) : Word := if sz = 8 then v else sx sz v

def inImm (v : Word) : Bool := v = sx 4 v

/-- codegen.c:2386-2401 `arith_ins` for the operators with two operands. -/
def aluOf : ArOp → Option Alu
  | .add => some .add | .sub => some .sub | .mul => some .imul
  | .band => some .and | .bor => some .or | .bxor => some .xor
  | .div | .mod => none

/-- codegen.c:2221-2232 `imm_tmpl` with an instruction `f` of size `sz`. -/
def immTmpl (f : Opd → Ins) (v : Word) : List Ins :=
  if v = sx 4 v then [f (.imm v)]
  else if v = zx 4 v then [.mov 4 (.imm v) (.reg .dx), f (.reg .dx)]
  else [.mov 8 (.imm v) (.reg .dx), f (.reg .dx)]

/-- codegen.c:2403-2411 `imm_arith2`. -/
def immArith2 (op : Alu) (sz : Nat) (r : Reg) (v : Word) : List Ins :=
  if inImm v then [.alu op sz (.imm v) (.reg r)]
  else [.mov sz (.imm v) (.reg .dx), .alu op sz (.reg .dx) (.reg r)]

/-- codegen.c:2413-2420 `imm_add`. -/
def immAdd (sz : Nat) (r : Reg) (v : Word) : List Ins :=
  if v = 0 then [] else if v = 1 then [.un .inc sz r] else if v = -1 then [.un .dec sz r]
  else immArith2 .add sz r v
/-- codegen.c:2422-2429 `imm_sub`. -/
def immSub (sz : Nat) (r : Reg) (v : Word) : List Ins :=
  if v = 0 then [] else if v = 1 then [.un .dec sz r] else if v = -1 then [.un .inc sz r]
  else immArith2 .sub sz r v
/-- codegen.c:2431-2437 `imm_and`. -/
def immAnd (sz : Nat) (r : Reg) (v : Word) : List Ins :=
  if v = 0 then [.alu .xor sz (.reg r) (.reg r)] else if v = -1 then []
  else immArith2 .and sz r v
/-- codegen.c:2439-2450 `imm_cmp`. -/
def immCmp (sz : Nat) (r : Reg) (v : Word) : List Ins :=
  if v = 0 then [.test sz (.reg r) (.reg r)]
  else if inImm v then [.cmp sz (.imm v) (.reg r)]
  else [.mov sz (.imm v) (.reg .dx), .cmp sz (.reg .dx) (.reg r)]

/-- codegen.c:2494-2501: the `i` in `1 .. n` with `1 << i == val`, if any. -/
def log2In (v : Word) : Nat → Option Nat
  | 0 => none
  | n + 1 => match log2In v n with
    | some i => some i
    | none => if n + 1 = 0 then none else if (1 : Word) <<< (n + 1) = v then some (n + 1) else none

/-- codegen.c:205-207 `is_pow_of_two`. -/
def isPow2 (v : Word) : Bool := v &&& (v - 1) == 0

/-- codegen.c:2452-2505 `imm_arith` for a two-operand operator. -/
def immArith (k : ArOp) (sz : Nat) (v : Word) : List Ins :=
  match k with
  | .add => immAdd sz .ax v
  | .sub => immSub sz .ax v
  | .band => immAnd sz .ax v
  | .mul =>
    if v = 0 then [.alu .xor 4 (.reg .ax) (.reg .ax)]
    else if v = 1 then []
    else if v = -1 then [.un .neg sz .ax]
    else match (if isPow2 v then log2In v (sz * 8 - 1) else none) with
      | some i => [.shft .shl sz (.imm i) .ax]
      | none => immArith2 .imul sz .ax v
  | .bor =>
    if v = 0 then [] else if v = -1 then [.mov sz (.imm v) (.reg .ax)] else immArith2 .or sz .ax v
  | .bxor =>
    if v = 0 then [] else if v = -1 then [.un .not sz .ax] else immArith2 .xor sz .ax v
  | .div | .mod => []

/-- codegen.c:2452-2505 `imm_arith` for a shift (the count fits an immediate). -/
def immShift (k : ShKind) (sz : Nat) (v : Word) : List Ins :=
  if v = 0 then [] else [.shft k sz (.imm v.toNat) .ax]

/-- codegen.c:2507-2568 `divmod_opt`: what is printed after the operand; `none` if nothing
applies. -/
def divmodOpt (isMod : Bool) (t : ITy) (v : Word) : Option (List Ins) :=
  let sz := t.size
  if v = 1 then some (if isMod then [.alu .xor 4 (.reg .ax) (.reg .ax)] else [])
  else if v = -1 then
    if !t.uns then some (if isMod then [.alu .xor 4 (.reg .ax) (.reg .ax)] else [.un .neg sz .ax])
    else if !isMod then some (.cmp sz (.imm (-1)) (.reg .ax) :: setcc .eq false)
    else some [.alu .xor 4 (.reg .dx) (.reg .dx), .cmp sz (.imm (-1)) (.reg .ax), .cmov .e sz .dx .ax]
  else
    match (if !isMod && isPow2 v && t.uns then log2In v (sz * 8 - 1) else none) with
    | some i => some [.shft .shr sz (.imm i) .ax]
    | none =>
      if isMod && isPow2 v && t.uns && v != 0 then
        let msk := v - 1
        if msk = 0xffffffff then some [.mov 4 (.reg .ax) (.reg .ax)]
        else if msk.toNat ≤ 0x7fffffff then some [.alu .and 4 (.imm msk) (.reg .ax)]
        else some (immAnd sz .ax msk)
      else none

/-- codegen.c:2801-2836 `bool_expr_opt`. -/
def boolOpt : Node → Bool → Option (Node × Bool) → Option (Node × Bool)
  | .not e, hasNot, best => boolOpt e (!hasNot) best
  | .cmp op a b, hasNot, _ => some (.cmp op a b, hasNot)
  | .logand a b, hasNot, _ => some (.logand a b, hasNot)
  | .logor a b, hasNot, _ => some (.logor a b, hasNot)
  | .cast t e, hasNot, best => boolOpt e hasNot (if t.kind = .bool then some (.cast t e, hasNot) else best)
  | n, hasNot, best => if n.ty.kind = .bool then some (n, hasNot) else best

/-- codegen.c:958-963 `gen_cmp_zero`: the comparison with zero. -/
def cmpZero (e : Node) (op : CmpOp) : Node :=
  let p := usualConv hs opt e (.num e.ty 0)
  .cmp op p.1 p.2

/-- What is being generated: the value in %rax, only the effects, or a jump on the truth value. -/
inductive Mode where
  | expr
  | void
  | cond (j : Bool) (l : Label)
  deriving DecidableEq, Repr

/-- codegen.c:2608-2652 `gen_arith_opt_gp2`. `rec` is `gen_expr`. -/
def arithOpt2 (rec : Node → G) (k : ArOp) (op : Alu) (sz : Nat) (l r : Node) (pass : Nat) : Option G :=
  match pass with
  | 0 =>
    match evalNode hs r with
    | .ok v => some (rec l ;; inss (immArith k sz (limitImm v sz)))
    | _ => none
  | 1 =>
    match memop r with
    | some x => some (rec l ;; inss [.alu op sz (.mem (loc x)) (.reg .ax)])
    | none => none
  | 2 =>
    match r with
    | .cast _ e =>
      match memop e with
      | some x => if sz ≤ e.ty.size then some (rec l ;; inss [.alu op sz (.mem (loc x)) (.reg .ax)]) else none
      | none => none
    | _ => none
  | _ =>
    match r with
    | .cast _ e =>
      match memop e with
      | some x =>
        if sz > e.ty.size then
          some (rec l ;; inss [(if !e.ty.uns && sz = 8 then loadExt64 e.ty (loc x) .dx else loadExt e.ty (loc x) .dx),
            .alu op sz (.reg .dx) (.reg .ax)])
        else none
      | none => none
    | _ => none

/-- codegen.c:2654-2672 `gen_arith_opt_gp`. -/
def arithOpt (rec : Node → G) (sz : Nat) (k : ArOp) (a b : Node) : Option G :=
  match aluOf k with
  | none => none
  | some op =>
    let pass (i : Nat) : Option G :=
      (arithOpt2 hs loc rec k op sz a b i).orElse fun _ =>
        if k = .sub then none else arithOpt2 hs loc rec k op sz b a i
    (pass 0).orElse fun _ => (pass 1).orElse fun _ => (pass 2).orElse fun _ => pass 3

/-- codegen.c:2570-2591 `gen_cmp_opt_gp2`. -/
def cmpOpt2 (rec : Node → G) (l r : Node) : Option G :=
  match evalNode hs r with
  | .ok v =>
    match memop l with
    | some x => some (inss (immTmpl (fun o => .cmp (rop l.ty) o (.mem (loc x))) (limitImm v l.ty.size)))
    | none => some (rec l ;; inss (immCmp (rop l.ty) .ax (limitImm v l.ty.size)))
  | _ =>
    match memop l with
    | some x => some (rec r ;; inss [.cmp (rop l.ty) (.reg .ax) (.mem (loc x))])
    | none => none

/-- codegen.c:2593-2606 `gen_cmp_opt_gp`: the code and the comparison to use. -/
def cmpOpt (rec : Node → G) (op : CmpOp) (a b : Node) : Option (G × CmpOp) :=
  match cmpOpt2 hs loc rec a b with
  | some g => some (g, op)
  | none =>
    match cmpOpt2 hs loc rec b a with
    | some g => some (g, swapCmp op)
    | none => none

/-- codegen.c:2003-2009: evaluate both operands, `k` gets the register with the left one. -/
def binary (rec : Node → G) (a b : Node) (k : Reg → List Ins) : G :=
  let r64 := a.ty.size = 8
  rec a ;; tmp (pushIns stkSz r64 .ax) (rec b) (fun l => popIn stkSz r64 l ++ k (popReg l))

/-- codegen.c:1599-1617 `gen_logical`. -/
def logical (recC : Bool → Label → Node → G) (isOr : Bool) (a b : Node) (flip : Bool) : G :=
  withLabel fun c =>
    let zero : Line := .ins (.alu .xor 4 (.reg .ax) (.reg .ax))
    let one : Line := .ins (.mov 4 (.imm 1) (.reg .ax))
    let sc := isOr ^^ flip
    recC isOr (.short c) a ;; recC isOr (.short c) b ;;
      lines [(if sc then zero else one), .jmp (.fall c), .lab (.short c), (if sc then one else zero),
        .lab (.fall c)]

/-- codegen.c:2838-2863 `gen_bool_opt`. -/
def genBoolOpt (recE : Node → G) (recC : Bool → Label → Node → G) (n : Node) : Option G :=
  match boolOpt n false none with
  | none => none
  | some (e, flip) =>
    if e = n then none
    else
      match e with
      | .cmp op a b => some (recE (.cmp (flipCmp op flip) a b))
      | .logand a b => some (logical recC false a b flip)
      | .logor a b => some (logical recC true a b flip)
      | .cast t x =>
        if t.kind = .bool then some (recE (cmpZero hs opt x (if flip then .eq else .ne)))
        else some (recE e ;; inss (if flip then [.alu .xor 1 (.imm 1) (.reg .ax)] else []))
      | _ => some (recE e ;; inss (if flip then [.alu .xor 1 (.imm 1) (.reg .ax)] else []))

/-- codegen.c:2723-2758 `gen_load_opt_gp` for %rax. -/
def loadOpt (n : Node) : Option G :=
  match n with
  | .cast t e =>
    match memop e with
    | some x =>
      if t.size > e.ty.size then
        if !e.ty.uns && t.size = 8 then some (inss [loadExt64 e.ty (loc x) .ax])
        else if !(t.size = 2 && t.uns && !e.ty.uns) then some (inss [loadExt e.ty (loc x) .ax])
        else none
      else if t.kind ≠ .bool then some (inss [loadExt t (loc x) .ax])
      else none
    | none => none
  | _ => none

/-- codegen.c:2694-2721 `gen_gp_opt`. -/
def gpOpt (rec : Node → G) (n : Node) : Option G :=
  match n with
  | .shift k t a b =>
    match evalNode hs b with
    | .ok v => some (rec a ;; inss (immShift k t.size v))
    | _ =>
      match memop b with
      | some x => some (rec a ;; inss [.mov 1 (.mem (loc x)) (.reg .cx), .shft k t.size .cl .ax])
      | none => none
  | .bin .div t a b =>
    match evalNode hs b with
    | .ok v => (divmodOpt false t v).map fun l => rec a ;; inss l
    | _ => none
  | .bin .mod t a b =>
    match evalNode hs b with
    | .ok v => (divmodOpt true t v).map fun l => rec a ;; inss l
    | _ => none
  | .bin k t a b => arithOpt hs loc rec t.size k a b
  | .cmp op a b =>
    match cmpOpt hs loc rec op a b with
    | some (g, op') => some (g ;; inss (setcc op' a.ty.uns))
    | none => none
  | _ => none

/-- codegen.c:2907-2909: a 32-bit result of a 64-bit operator. -/
def truncOpt (rec : Node → G) (n : Node) : Option G :=
  match n with
  | .cast t (.bin k t2 a b) =>
    if t.size = 4 ∧ t2.size = 8 then arithOpt hs loc rec 4 k a b else none
  | _ => none

/-- codegen.c:2865-2959 `gen_expr_opt`. -/
def exprOpt (recE : Node → G) (recC : Bool → Label → Node → G) (n : Node) : Option G :=
  match evalNode hs n with
  | .ok v => some (inss (loadVal n.ty v))
  | _ =>
  match loadOpt loc n with
  | some g => some g
  | none =>
  match memop n with
  | some x => some (inss [loadExt n.ty (loc x) .ax])
  | none =>
  match n with
  | .assign t x r => some (recE r ;; inss [.mov t.size (.reg .ax) (.mem (loc x))])
  | _ =>
  match genBoolOpt hs opt recE recC n with
  | some g => some g
  | none =>
  match gpOpt hs loc recE n with
  | some g => some g
  | none =>
  match truncOpt hs loc recE n with
  | some g => some g
  | none =>
  match n with
  | .cond _ c a b =>
    match evalNode hs c with
    | .ok v => some (if v ≠ 0 then recE a else recE b)
    | _ => none
  | _ => none

/-- codegen.c:972-977 `gen_expr_null_lhs`: the tree generated. -/
def nullLhs (k : AKind) (t : ITy) (r : Node) : Node :=
  newCast hs opt (mkArith hs opt k (.null t) r) t

/-- codegen.c:1627-2060: `gen_expr2` without the shortcuts. -/
def exprPlain (recE recV : Node → G) (recC : Bool → Label → Node → G) (n : Node) : G :=
  match n with
  | .null _ => lines []
  | .num t v => inss (loadVal t v)
  | .un .pos _ e => recE e
  | .un .neg _ e => recE e ;; inss [.un .neg (rop e.ty) .ax]
  | .un .bnot _ e => recE e ;; inss [.un .not 8 .ax]
  | .var t x => inss [.lea (loc x) .ax, loadExt t (.ind .ax) .ax]
  | .assign t x r =>
    inss [.lea (loc x) .ax] ;;
      tmp (pushIns stkSz true .ax) (recE r)
        (fun l => popIn stkSz true l ++ [.mov t.size (.reg .ax) (.mem (.ind (popReg l)))])
  | .arithAssign k t x r =>
    inss [.lea (loc x) .ax] ;;
      tmp (pushIns stkSz true .ax) (inss [loadExt t (.ind .ax) .ax] ;; recE (nullLhs hs opt k t r))
        (fun l => popIn stkSz true l ++ [.mov t.size (.reg .ax) (.mem (.ind (popReg l)))])
  | .postIncDec t x r =>
    inss [.lea (loc x) .ax, .mov 8 (.reg .ax) (.reg .cx), loadExt t (.ind .ax) .ax] ;;
      tmp (pushIns stkSz true .ax)
        (tmp (pushIns stkSz true .cx) (recE (nullLhs hs opt (.ar .add) t r))
          (fun l => popIn stkSz true l ++ [.mov t.size (.reg .ax) (.mem (.ind (popReg l)))]))
        (fun l => popTo stkSz true .ax l)
  | .comma a b => recV a ;; recE b
  | .cast t e =>
    if t.kind = .bool then recE (cmpZero hs opt e .ne)
    else recE e ;; inss (castIns e.ty t)
  | .cond _ c a b => withLabel fun i =>
      recC false (.else_ i) c ;; recE a ;; lines [.jmp (.end_ i), .lab (.else_ i)] ;; recE b ;; lines [.lab (.end_ i)]
  | .not e => recE e ;; inss [.alu .xor 1 (.imm 1) (.reg .ax)]
  | .logand a b => logical recC false a b false
  | .logor a b => logical recC true a b false
  | .shift k t a b =>
    recE a ;; tmp (pushIns stkSz (t.size = 8) .ax) (recE b ;; inss [.mov 1 (.reg .ax) (.reg .cx)])
      (fun l => popTo stkSz (t.size = 8) .ax l ++ [.shft k (rop t) .cl .ax])
  | .bin k t a b => binary stkSz recE a b (fun op => arithEnd k t.uns (rop a.ty) op)
  | .cmp op a b => binary stkSz recE a b (fun r => .cmp (rop a.ty) (.reg .ax) (.reg r) :: setcc op a.ty.uns)

/-- codegen.c:1590-1596, the end of `gen_cond`: evaluate, test, jump. -/
def condPlain (recE : Node → G) (j : Bool) (l : Label) (n : Node) : G :=
  recE n ;; lines [.ins (.test 1 (.reg .ax) (.reg .ax)), .jcc (if j then .ne else .e) l]

/-- codegen.c:1541-1587, the part of `gen_cond` after `bool_expr_opt`. -/
def condOn (recE : Node → G) (recC : Bool → Label → Node → G) (j : Bool) (l : Label) (n : Node) : G :=
  match evalNode hs n with
  | .ok v => lines (if v = (if j then 1 else 0) then [.jmp l] else [])
  | _ =>
    match n with
    | .cmp op a b =>
      match cmpOpt hs loc recE op a b with
      | some (g, op') => g ;; lines [.jcc (cmpCC (flipCmp op' (!j)) a.ty.uns) l]
      | none =>
        binary stkSz recE a b (fun r => [.cmp (rop a.ty) (.reg .ax) (.reg r)]) ;;
          lines [.jcc (cmpCC (flipCmp op (!j)) a.ty.uns) l]
    | .logand a b =>
      if j = false then recC false l a ;; recC false l b
      else withLabel fun c =>
        recC false (.short c) a ;; recC false (.short c) b ;; lines [.jmp l, .lab (.short c)]
    | .logor a b =>
      if j = true then recC true l a ;; recC true l b
      else withLabel fun c =>
        recC true (.short c) a ;; recC true (.short c) b ;; lines [.jmp l, .lab (.short c)]
    | .cast t e =>
      if t.kind = .bool then recC j l (cmpZero hs opt e .ne) else condPlain recE j l n
    | _ => condPlain recE j l n

/-- codegen.c:1532-1597 `gen_cond`, after the test for a function call (not modelled). -/
def condCode (recE : Node → G) (recC : Bool → Label → Node → G) (j : Bool) (l : Label) (n : Node) : G :=
  if opt then
    match boolOpt n false none with
    | some (e, flip) => condOn hs opt loc stkSz recE recC (j ^^ flip) l e
    | none => condOn hs opt loc stkSz recE recC j l n
  else condPlain recE j l n

/-- codegen.c:2265-2292 `gen_void_arith_assign`, with 2234-2263 `memop_arith`; `n` is the node as an
ND_ARITH_ASSIGN. -/
def voidArith (recE : Node → G) (k : AKind) (t : ITy) (x : Nat) (r : Node) : G :=
  match k with
  | .ar op =>
    match (if op = .mul then none else aluOf op) with
    | some ins =>
      if opt && t.kind ≠ .bool then
        let rhs := (usualConv hs opt (.null t) r).2
        match evalNode hs rhs with
        | .ok v => inss (immTmpl (fun o => .alu ins t.size o (.mem (loc x))) (limitImm v t.size))
        | _ => recE rhs ;; inss [.alu ins t.size (.reg .ax) (.mem (loc x))]
      else recE (.arithAssign k t x r)
    | none => recE (.arithAssign k t x r)
  | .sh _ => recE (.arithAssign k t x r)

/-- codegen.c:2304-2311: the variable whose bytes are copied by an assignment to an object of type
`t`. -/
def copyFrom (t : ITy) (r : Node) : Option Nat :=
  match memop r with
  | some y => some y
  | none =>
    match r with
    | .cast _ e => if t.size ≤ e.ty.size ∧ t.kind ≠ .bool then memop e else none
    | _ => none

/-- codegen.c:2294-2334 `gen_void_assign`; the copy of at most eight bytes is codegen.c:566-569. -/
def voidAssign (recE : Node → G) (t : ITy) (x : Nat) (r : Node) : G :=
  match evalNode hs r with
  | .ok v => inss (immTmpl (fun o => .mov t.size o (.mem (loc x))) (limitImm v t.size))
  | _ =>
    match copyFrom t r with
    | some y => inss [.mov t.size (.mem (loc y)) (.reg .dx), .mov t.size (.reg .dx) (.mem (loc x))]
    | none => recE (.assign t x r)

/-- codegen.c:2336-2384 `gen_void_expr`. -/
def voidCode (recE recV : Node → G) (n : Node) : G :=
  match n with
  | .null _ | .var _ _ | .num _ _ => lines []
  | .un _ _ e | .not e | .cast _ e => recV e
  | .bin _ _ a b | .shift _ _ a b | .cmp _ a b | .comma a b => recV a ;; recV b
  | .assign t x r => voidAssign hs loc recE t x r
  | .arithAssign k t x r => voidArith hs opt loc recE k t x r
  | .postIncDec t x r => voidArith hs opt loc recE (.ar .add) t x r
  | n => recE n

/-- A measure of the tree that bounds the recursion. -/
def weight : Node → Nat
  | .num _ _ | .null _ | .var _ _ => 1
  | .cast t e => weight e + (if t.kind = .bool then 12 else 1)
  | .un _ _ e | .not e => weight e + 1
  | .bin _ _ a b | .shift _ _ a b | .cmp _ a b | .logand a b | .logor a b | .comma a b => weight a + weight b + 1
  | .cond _ c a b => weight c + weight a + weight b + 1
  | .assign _ _ r => weight r + 2
  | .arithAssign _ _ _ r => weight r + 40
  | .postIncDec _ _ r => weight r + 41

/-- codegen.c:1620-2065 `gen_expr`, 1532 `gen_cond`, 2336 `gen_void_expr`. -/
def gen : Nat → Mode → Node → G
  | 0, _, _ => lines []
  | f + 1, .expr, n =>
    let recE := gen f .expr
    let recV := gen f .void
    let recC := fun j l => gen f (.cond j l)
    match (if opt then exprOpt hs opt loc recE recC n else none) with
    | some g => g
    | none => exprPlain hs opt loc stkSz recE recV recC n
  | f + 1, .void, n => voidCode hs opt loc (gen f .expr) (gen f .void) n
  | f + 1, .cond j l, n => condCode hs opt loc stkSz (gen f .expr) (fun j l => gen f (.cond j l)) j l n

/-- The fuel needed. -/
def fuel (m : Mode) (n : Node) : Nat := 2 * weight n + (match m with | .expr => 0 | _ => 1)

/-- codegen.c:2062-2065 `gen_expr` from label counter `c`. -/
def genExpr (n : Node) : G := gen hs opt loc stkSz (fuel .expr n) .expr n

end
end Slimcc.Gen
