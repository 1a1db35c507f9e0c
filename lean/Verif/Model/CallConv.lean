/-
Argument passing: codegen.c:1115-1320, 1376-1530, 1832-1890, 4007-4150.

Simplifications, for the whole file:
* Only where each argument goes is modelled here, and which bytes are moved;
  how an argument's value is computed is not.
* `int` arithmetic on sizes does not overflow.
* Alignments are positive.
-/
import Verif.Model.CallTypes
set_option autoImplicit false

namespace Slimcc.CC

/-- codegen.c:3-4. -/
def gpMax : Nat := 6
def fpMax : Nat := 8

/-- `align_to`, codegen.c:523-525. -/
def alignTo (n align : Nat) : Nat := (n + align - 1) / align * align

/-- The array loop of `has_flonum`, codegen.c:1143-1155: `f` is the call for the
element at an offset, `sz` the element's size, `i` the index. -/
def flonumArr (lo hi sz off : Nat) (f : Nat → Bool) : Nat → Nat → Bool
  | 0, _ => true
  | n + 1, i =>
    let ofs := off + sz * i
    if ofs + sz ≤ lo then flonumArr lo hi sz off f n (i + 1)
    else if hi ≤ ofs then true
    else if f ofs then flonumArr lo hi sz off f n (i + 1)
    else false

mutual
/-- `has_flonum`, codegen.c:1130-1158. -/
def hasFlonum (lo hi : Nat) : CTy → Nat → Bool
  | .scalar k _, _ => k == .float || k == .double
  | .arr b n, off => flonumArr lo hi b.size off (hasFlonum lo hi b) n 0
  | .agg _ _ _ ms, off => flonumMems lo hi ms off
/-- The member loop, codegen.c:1131-1141. -/
def flonumMems (lo hi : Nat) : Mems → Nat → Bool
  | .nil, _ => true
  | .cons o t ms, off =>
    let ofs := off + o
    if ofs + t.size ≤ lo then flonumMems lo hi ms off
    else if hi ≤ ofs then true
    else if hasFlonum lo hi t ofs then flonumMems lo hi ms off
    else false
end

/-- codegen.c:1160-1166. -/
def hasFlonum1 (t : CTy) : Bool := hasFlonum 0 8 t 0
def hasFlonum2 (t : CTy) : Bool := hasFlonum 8 16 t 0

/-- Where `calling_convention` leaves an argument: `pass_by_stack` and
`stack_offset`. -/
inductive Slot where
  | inRegs
  | onStack (ofs : Nat)
  deriving DecidableEq, Repr

/-- The variables of `calling_convention`. -/
structure Cnt where
  gp : Nat
  fp : Nat
  stack : Nat := 0
  maxAlign : Nat := 16
  deriving DecidableEq, Repr

def b2n (b : Bool) : Nat := if b then 1 else 0

/-- The end of the loop body, codegen.c:1209-1216. -/
def toStack (c : Cnt) (t : CTy) : Slot × Cnt :=
  let (st, ma) := if t.align > 8 then (alignTo c.stack t.align, max c.maxAlign t.align)
    else (c.stack, c.maxAlign)
  (.onStack st, { c with stack := st + alignTo t.size 8, maxAlign := ma })

/-- `fp_inc` and `gp_inc`, codegen.c:1187-1188. -/
def fpInc (t : CTy) : Nat := b2n (hasFlonum1 t) + b2n (t.size > 8 && hasFlonum2 t)
def gpInc (t : CTy) : Nat := b2n (!hasFlonum1 t) + b2n (t.size > 8 && !hasFlonum2 t)

/-- The loop body of `calling_convention`, codegen.c:1179-1217. -/
def convStep (c : Cnt) (t : CTy) : Slot × Cnt :=
  match t with
  | .agg .. =>
    if t.size ≤ 16 then
      if (fpInc t = 0 ∨ c.fp + fpInc t ≤ fpMax) ∧ (gpInc t = 0 ∨ c.gp + gpInc t ≤ gpMax) then
        (.inRegs, { c with fp := c.fp + fpInc t, gp := c.gp + gpInc t })
      else toStack c t
    else toStack c t
  | .scalar .float _ | .scalar .double _ =>
    if c.fp < fpMax then (.inRegs, { c with fp := c.fp + 1 })
    else toStack { c with fp := c.fp + 1 } t
  | .scalar .ldouble _ => toStack c t
  | .scalar (.int _) _ | .arr .. =>
    if c.gp < gpMax then (.inRegs, { c with gp := c.gp + 1 })
    else toStack { c with gp := c.gp + 1 } t

/-- `calling_convention`, codegen.c:1175-1224, before the counts are cut. -/
def conv : List CTy → Cnt → List Slot × Cnt
  | [], c => ([], c)
  | t :: ts, c =>
    let (s, c) := convStep c t
    let (ss, c) := conv ts c
    (s :: ss, c)

/-- The counts `calling_convention` reports, codegen.c:1218-1219. -/
def Cnt.gpCount (c : Cnt) : Nat := min c.gp gpMax
def Cnt.fpCount (c : Cnt) : Nat := min c.fp fpMax

/-- `place_reg_arg`, codegen.c:1376-1405: the registers loaded, one for each
eight bytes, and the counters afterwards. -/
def placeRegArg (t : CTy) (gp fp : Nat) : List Reg × Nat × Nat :=
  match t with
  | .agg .. =>
    let (r, gp, fp) := if hasFlonum1 t then (Reg.fp fp, gp, fp + 1) else (Reg.gp gp, gp + 1, fp)
    if t.size > 8 then
      if hasFlonum2 t then ([r, .fp fp], gp, fp + 1) else ([r, .gp gp], gp + 1, fp)
    else ([r], gp, fp)
  | .scalar .float _ | .scalar .double _ => ([.fp fp], gp, fp + 1)
  | _ => ([.gp gp], gp + 1, fp)

/-- The loop of `gen_funcall_args`, codegen.c:1417-1455: arguments on the stack
are at their offset from `%rsp` (codegen.c:4187-4189), the others are loaded
into registers in turn.  SIMPLIFICATION: with `-O` an argument that is a
constant, or in memory already, is loaded directly; the register and the
counters are the same, codegen.c:1427-1452. -/
def callerLocs : List CTy → List Slot → Nat → Nat → List Loc
  | t :: ts, .inRegs :: ss, gp, fp =>
    let (rs, gp, fp) := placeRegArg t gp fp
    .regs rs :: callerLocs ts ss gp fp
  | _ :: ts, .onStack o :: ss, gp, fp => .stack o :: callerLocs ts ss gp fp
  | _, _, _, _ => []

/-- A call, codegen.c:1460-1473: a large result takes the first register. -/
def callArgs (ts : List CTy) (retSize : Nat) : List Loc × Cnt :=
  let gp := b2n (retSize > 16)
  let (ss, c) := conv ts { gp := gp, fp := 0 }
  (callerLocs ts ss gp 0, c)

/-- A parameter in the callee: registers stored piecewise (each with the offset
in the parameter and the number of bytes), or an offset from `%rbp`. -/
inductive Param where
  | stored (parts : List (Reg × Nat × Nat))
  | atRbp (ofs : Nat)
  deriving DecidableEq, Repr

/-- Storing one parameter, codegen.c:4126-4150. -/
def storeParam (t : CTy) (gp fp : Nat) : List (Reg × Nat × Nat) × Nat × Nat :=
  match t with
  | .agg .. =>
    let (r, gp, fp) :=
      if hasFlonum1 t then ((Reg.fp fp, 0, min 8 t.size), gp, fp + 1)
      else ((Reg.gp gp, 0, min 8 t.size), gp + 1, fp)
    if t.size > 8 then
      if hasFlonum2 t then ([r, (.fp fp, 8, t.size - 8)], gp, fp + 1)
      else ([r, (.gp gp, 8, t.size - 8)], gp + 1, fp)
    else ([r], gp, fp)
  | .scalar .float _ | .scalar .double _ => ([(.fp fp, 0, t.size)], gp, fp + 1)
  | _ => ([(.gp gp, 0, t.size)], gp + 1, fp)

/-- The parameters of a function: stack parameters at `stack_offset + 16` from
`%rbp` (codegen.c:3840-3843), the others stored by the loop at
codegen.c:4119-4150. -/
def calleeLocs : List CTy → List Slot → Nat → Nat → List Param
  | t :: ts, .inRegs :: ss, gp, fp =>
    let (rs, gp, fp) := storeParam t gp fp
    .stored rs :: calleeLocs ts ss gp fp
  | _ :: ts, .onStack o :: ss, gp, fp => .atRbp (o + 16) :: calleeLocs ts ss gp fp
  | _, _, _, _ => []

/-- The parameters of a function definition, codegen.c:4056-4060, 4119-4150. -/
def params (ts : List CTy) (retSize : Nat) : List Param × Cnt :=
  let gp := b2n (retSize > 16)
  let (ss, c) := conv ts { gp := gp, fp := 0 }
  (calleeLocs ts ss gp 0, c)

/-- The stack pointer at the call instruction, from the one before the
arguments are made room for: codegen.c:1488-1497. -/
def callSp (sp : Nat) (c : Cnt) : Nat :=
  if c.stack = 0 then sp
  else if c.maxAlign > 16 then (sp - c.stack) / c.maxAlign * c.maxAlign
  else sp - alignTo c.stack 16

/-- `%rbp` in the callee: the return address and the old `%rbp` have been
pushed, codegen.c:4068-4069. -/
def calleeRbp (sp : Nat) : Nat := sp - 16

/-! ### Variadic functions -/

/-- `va_list`, main.c:742-748, with the overflow area as an address. -/
structure VaList where
  gpOfs : Nat
  fpOfs : Nat
  overflow : Nat
  deriving DecidableEq, Repr

/-- `va_start`, codegen.c:1832-1841 with the values of codegen.c:4085-4088. -/
def vaStart (c : Cnt) (rbp : Nat) : VaList :=
  { gpOfs := c.gpCount * 8, fpOfs := c.fpCount * 16 + 48, overflow := rbp + (c.stack + 16) }

/-- The offsets in the register save area at which the prologue stores
registers, codegen.c:4090-4113: from the first one not taken by a named
parameter on; the vector registers only if `%al` is not zero. -/
def saved (c : Cnt) (al : Nat) (r : Reg) : Option Nat :=
  match r with
  | .gp n => if c.gpCount ≤ n ∧ n < 6 then some (8 * n) else none
  | .fp n => if c.fpCount ≤ n ∧ n < 8 ∧ al ≠ 0 then some (48 + 16 * n) else none

/-- What `va_arg` yields: pieces of the register save area (offsets, one for
each eight bytes), or an address. -/
inductive VaSrc where
  | save (ofs : List Nat)
  | mem (addr : Nat)
  deriving DecidableEq, Repr

/-- `va_arg_need_copy`, codegen.c:1168-1173. -/
def vaNeedCopy (t : CTy) : Bool :=
  if t.size > 8 && t.size ≤ 16 then hasFlonum1 t || hasFlonum2 t else false

/-- The overflow area, codegen.c:1876-1886. -/
def vaOverflow (t : CTy) (v : VaList) : VaSrc × VaList :=
  if t.align ≤ 8 then (.mem v.overflow, { v with overflow := v.overflow + alignTo t.size 8 })
  else
    let a := (v.overflow + (t.align - 1)) / t.align * t.align
    (.mem a, { v with overflow := a + alignTo t.size 8 })

/-- One part in `gen_vaarg_reg_copy`, codegen.c:1300-1312. -/
def vaPart (isFp : Bool) (v : VaList) : Nat × VaList :=
  if isFp then (v.fpOfs, { v with fpOfs := v.fpOfs + 16 })
  else (v.gpOfs, { v with gpOfs := v.gpOfs + 8 })

/-- `ND_VA_ARG`, codegen.c:1850-1890, and `gen_vaarg_reg_copy`,
codegen.c:1287-1315. -/
def vaArg (t : CTy) (v : VaList) : VaSrc × VaList :=
  let isLd := match t with
    | .scalar .ldouble _ => true
    | _ => false
  if t.size ≤ 16 && !isLd then
    if vaNeedCopy t then
      let gpInc := b2n (!hasFlonum1 t) + b2n (!hasFlonum2 t)
      let fpInc := b2n (hasFlonum1 t) + b2n (hasFlonum2 t)
      if (gpInc ≠ 0 ∧ v.gpOfs > 48 - gpInc * 8) ∨ v.fpOfs > 176 - fpInc * 16 then vaOverflow t v
      else
        let (a, v) := vaPart (hasFlonum1 t) v
        let (b, v) := vaPart (hasFlonum2 t) v
        (.save [a, b], v)
    else if hasFlonum1 t then
      if v.fpOfs > 160 then vaOverflow t v
      else (.save [v.fpOfs], { v with fpOfs := v.fpOfs + 16 })
    else
      let gpInc := if t.size > 8 then 2 else 1
      if v.gpOfs > 48 - gpInc * 8 then vaOverflow t v
      else (.save ((List.range gpInc).map (fun i => v.gpOfs + 8 * i)),
        { v with gpOfs := v.gpOfs + gpInc * 8 })
  else vaOverflow t v

/-- A sequence of `va_arg`s. -/
def vaArgs : List CTy → VaList → List VaSrc
  | [], _ => []
  | t :: ts, v =>
    let (s, v) := vaArg t v
    s :: vaArgs ts v

end Slimcc.CC
