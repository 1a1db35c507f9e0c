import Verif.Model.FloatMul
import Verif.Spec.FpArith
import Verif.Model.Gen
/-!
The floating point part of the target machine: SSE scalar instructions and the x87, on top of the machine of
Model/X86. This is the semantics of the target, not of anything in /repo; it follows the manuals of the processor.
Simplifications: of an SSE register only the low eight bytes are kept; SSE arithmetic rounds to nearest (MXCSR as at
the start of a process); exceptions are masked and their flags are not kept; data that are not numbers are not
distinguished; pushing on a full x87 stack is stuck, and so is x87 arithmetic under a control word other than 64
bits of precision and rounding to nearest. %rsp is the register `tmp 6`, which the integer code of
Model/X86 does not use.
-/
set_option autoImplicit false
namespace Slimcc.FP
open Slimcc.Spec.FP Slimcc.X86

def rsp : Reg := .tmp 6

structure FS where
  g : St
  /-- low eight bytes of %xmm0, ... -/
  xmm : Nat → Word
  /-- x87 stack, top first -/
  st : List Fl
  cw : BitVec 16
  /-- parity flag of the last comparison of floating data -/
  pf : Option Bool

/-- The datum in the low bytes of a word: four, or eight if `d`. -/
def datum (d : Bool) (w : Word) : Fl :=
  if d then decode f64 64 w.toNat else decode f32 32 (zx 4 w).toNat

def fmtOf (d : Bool) : Fmt := if d then f64 else f32

/-- Its bits. -/
def bits (d : Bool) (x : Fl) : Word :=
  if d then BitVec.ofNat 64 (encode f64 64 x) else BitVec.ofNat 64 (encode f32 32 x)

/-- A scalar result replaces the low four or eight bytes of a register. -/
def merge (d : Bool) (old new : Word) : Word :=
  if d then new else (old >>> 32) <<< 32 ||| zx 4 new

def FS.setX (s : FS) (i : Nat) (w : Word) : FS := { s with xmm := fun j => if j = i then w else s.xmm j }
def FS.setF (s : FS) (d : Bool) (i : Nat) (x : Fl) : FS := s.setX i (merge d (s.xmm i) (bits d x))

def FS.push (s : FS) (x : Fl) : Option FS := if s.st.length < 8 then some { s with st := x :: s.st } else none

/-- 64 bits of precision, rounding to nearest. -/
def plainCW (cw : BitVec 16) : Prop := cw.extractLsb' 8 4 = 3#4
instance (cw : BitVec 16) : Decidable (plainCW cw) := inferInstanceAs (Decidable (_ = _))

/-- A signed integer of `n` bytes, the "integer indefinite" if there is none. -/
def intBits (n : Nat) (z : Option Int) : Word :=
  match z with
  | some z => if -2 ^ (8 * n - 1) ≤ z ∧ z < 2 ^ (8 * n - 1) then BitVec.ofInt 64 z else BitVec.ofNat 64 (2 ^ (8 * n - 1))
  | none => BitVec.ofNat 64 (2 ^ (8 * n - 1))

inductive FIns where
  /-- an instruction on general registers -/
  | gp (i : Ins)
  /-- push %rax, pop %rax -/
  | push | pop
  /-- cvtsi2ss, cvtsi2sd from a register of `sz` bytes -/
  | cvtsi (d : Bool) (sz : Nat) (src : Reg) (x : Nat)
  /-- cvttss2si, cvttsd2si to a register of `sz` bytes -/
  | cvtt (d : Bool) (sz : Nat) (x : Nat) (dst : Reg)
  /-- cvtss2sd, cvtsd2ss (`d`: from double) -/
  | cvtf (d : Bool) (src dst : Nat)
  | adds (d : Bool) (src dst : Nat)
  | subs (d : Bool) (src dst : Nat)
  | pxor (src dst : Nat)
  /-- movd, movq from a general register -/
  | movg (d : Bool) (src : Reg) (x : Nat)
  /-- movss, movsd to and from memory -/
  | movst (d : Bool) (x : Nat) (m : MemOp)
  | movld (d : Bool) (m : MemOp) (x : Nat)
  /-- fild of `sz` bytes -/
  | fild (sz : Nat) (m : MemOp)
  /-- flds, fldl -/
  | fld (d : Bool) (m : MemOp)
  | fldz
  /-- fadds -/
  | fadd (d : Bool) (m : MemOp)
  /-- fistp of `sz` bytes -/
  | fistp (sz : Nat) (m : MemOp)
  /-- fstps, fstpl -/
  | fstp (d : Bool) (m : MemOp)
  /-- fucomi %st(1), %st -/
  | fucomi
  /-- fcmovbe %st(1), %st -/
  | fcmovbe
  /-- fstp %st(1) -/
  | fstp1
  /-- fsubrp %st, %st(1): in the AT&T syntax, %st(1) minus %st -/
  | fsubrp
  | fnstcw (m : MemOp)
  | fldcw (m : MemOp)
  | muls (d : Bool) (src dst : Nat)
  | divs (d : Bool) (src dst : Nat)
  /-- movss, movsd between registers -/
  | movs (d : Bool) (src dst : Nat)
  | movaps (src dst : Nat)
  /-- ucomiss, ucomisd: compares `dst` with `src` -/
  | ucomis (d : Bool) (src dst : Nat)
  /-- setp, setnp (`n`) -/
  | setp (n : Bool) (dst : Reg)
  /-- push %rdx -/
  | pushdx
  | fninit
  /-- fldt, fstpt: ten bytes -/
  | fldt (m : MemOp)
  | fstpt (m : MemOp)
  | fld1
  | fchs
  /-- fxch %st(1) -/
  | fxch
  /-- faddp, fmulp; fsubp, fdivp: in the AT&T syntax, %st minus, divided by %st(1) -/
  | faddp | fsubp | fmulp | fdivp
  | fucomip
  /-- fstp %st(0) -/
  | fdrop
  deriving DecidableEq, Repr

/-- Instructions on general registers that leave the flags alone. -/
def keepsFlags : Ins → Bool
  | .mov .. | .movx .. | .lea .. | .set .. => true
  | _ => false

/-- The bits of a datum of the 80-bit format: the significand with its first bit; sign and exponent. -/
def encode80 : Fl → Nat × Nat
  | .nan => (3 * 2 ^ 62, 2 ^ 15 - 1)
  | .inf n => (2 ^ 63, (if n then 2 ^ 15 else 0) + (2 ^ 15 - 1))
  | .fin n m e => (m, (if n then 2 ^ 15 else 0) + (if 2 ^ 63 ≤ m then (e - f80.emin + 1).toNat else 0))

/-- Flags after a comparison of `x` with `y`. -/
def FS.flags (s : FS) (x y : Fl) : FS :=
  match compare x y with
  | none => { s with g := { s.g with f := some ⟨true, true, false⟩ }, pf := some true }
  | some (l, e) => { s with g := { s.g with f := some ⟨e, l, false⟩ }, pf := some false }

section
variable (sym : Nat → Word)

def fexec (i : FIns) (s : FS) : Option FS :=
  match i with
  | .gp i => (exec sym i s.g).map fun g => { s with g := g, pf := if keepsFlags i then s.pf else none }
  | .push =>
    let sp := s.g.r rsp - 8
    some { s with g := { s.g.setR rsp sp with m := wr s.g.m sp 8 (s.g.r .ax) } }
  | .pop => some { s with g := (s.g.setR .ax (rd s.g.m (s.g.r rsp) 8)).setR rsp (s.g.r rsp + 8) }
  | .cvtsi d sz src x => some (s.setF d x (ofInt (fmtOf d) (sx sz (s.g.r src)).toInt))
  | .cvtt d sz x dst =>
    let w := intBits sz (roundInt 3 (datum d (s.xmm x)))
    some { s with g := s.g.setR dst (put sz (s.g.r dst) w) }
  | .cvtf d src dst => some (s.setF (!d) dst (convert (fmtOf (!d)) (datum d (s.xmm src))))
  | .adds d src dst => some (s.setF d dst (add (fmtOf d) (datum d (s.xmm dst)) (datum d (s.xmm src))))
  | .subs d src dst => some (s.setF d dst (sub (fmtOf d) (datum d (s.xmm dst)) (datum d (s.xmm src))))
  | .pxor src dst => some (s.setX dst (s.xmm dst ^^^ s.xmm src))
  | .movg d src x => some (s.setX x (if d then s.g.r src else zx 4 (s.g.r src)))
  | .movst d x m => some { s with g := { s.g with m := wr s.g.m (ea sym s.g m) (if d then 8 else 4) (s.xmm x) } }
  | .movld d m x => some (s.setX x (rd s.g.m (ea sym s.g m) (if d then 8 else 4)))
  | .fild sz m => s.push (ofInt f80 (sx sz (rd s.g.m (ea sym s.g m) sz)).toInt)
  | .fld d m => s.push (convert f80 (datum d (rd s.g.m (ea sym s.g m) (if d then 8 else 4))))
  | .fldz => s.push (.fin false 0 f80.emin)
  | .fadd d m =>
    match s.st with
    | x :: st =>
      if plainCW s.cw then
        some { s with st := add f80 x (convert f80 (datum d (rd s.g.m (ea sym s.g m) (if d then 8 else 4)))) :: st }
      else none
    | [] => none
  | .fistp sz m =>
    match s.st with
    | x :: st =>
      let w := intBits sz (roundInt (s.cw.extractLsb' 10 2) x)
      some { s with g := { s.g with m := wr s.g.m (ea sym s.g m) sz w }, st := st }
    | [] => none
  | .fstp d m =>
    match s.st with
    | x :: st =>
      if plainCW s.cw then
        some { s with g := { s.g with m := wr s.g.m (ea sym s.g m) (if d then 8 else 4) (bits d (convert (fmtOf d) x)) }, st := st }
      else none
    | [] => none
  | .fucomi =>
    match s.st with
    | x :: y :: _ =>
      match compare x y with
      | none => some { s with g := { s.g with f := some ⟨true, true, false⟩ }, pf := some true }
      | some (l, e) => some { s with g := { s.g with f := some ⟨e, l, false⟩ }, pf := some false }
    | _ => none
  | .fcmovbe =>
    match s.st, s.g.f with
    | x :: y :: st, some f => some { s with st := (if CC.be.holds f then y else x) :: y :: st }
    | _, _ => none
  | .fstp1 =>
    match s.st with
    | x :: _ :: st => some { s with st := x :: st }
    | _ => none
  | .fsubrp =>
    match s.st with
    | x :: y :: st => if plainCW s.cw then some { s with st := sub f80 y x :: st } else none
    | _ => none
  | .fnstcw m => some { s with g := { s.g with m := wr s.g.m (ea sym s.g m) 2 (s.cw.setWidth 64) } }
  | .fldcw m => some { s with cw := (rd s.g.m (ea sym s.g m) 2).setWidth 16 }
  | .muls d src dst => some (s.setF d dst (mul (fmtOf d) (datum d (s.xmm dst)) (datum d (s.xmm src))))
  | .divs d src dst => some (s.setF d dst (div (fmtOf d) (datum d (s.xmm dst)) (datum d (s.xmm src))))
  | .movs d src dst => some (s.setX dst (merge d (s.xmm dst) (s.xmm src)))
  | .movaps src dst => some (s.setX dst (s.xmm src))
  | .ucomis d src dst => some (s.flags (datum d (s.xmm dst)) (datum d (s.xmm src)))
  | .setp n dst => s.pf.map fun p => { s with g := s.g.setR dst (put 1 (s.g.r dst) (if p ^^ n then 1 else 0)) }
  | .pushdx =>
    let sp := s.g.r rsp - 8
    some { s with g := { s.g.setR rsp sp with m := wr s.g.m sp 8 (s.g.r .dx) } }
  | .fninit => some { s with st := [], cw := 0x37f#16 }
  | .fldt m =>
    let a := ea sym s.g m
    s.push (decode80 (rd s.g.m a 8).toNat (rd s.g.m (a + 8) 2).toNat)
  | .fstpt m =>
    match s.st with
    | x :: st =>
      let a := ea sym s.g m
      some { s with g := { s.g with m := wr (wr s.g.m a 8 (BitVec.ofNat 64 (encode80 x).1)) (a + 8) 2 (BitVec.ofNat 64 (encode80 x).2) }, st := st }
    | [] => none
  | .fld1 => s.push (.fin false (2 ^ 63) (-63))
  | .fchs =>
    match s.st with
    | x :: st => some { s with st := neg x :: st }
    | [] => none
  | .fxch =>
    match s.st with
    | x :: y :: st => some { s with st := y :: x :: st }
    | _ => none
  | .faddp =>
    match s.st with
    | x :: y :: st => if plainCW s.cw then some { s with st := add f80 x y :: st } else none
    | _ => none
  | .fsubp =>
    match s.st with
    | x :: y :: st => if plainCW s.cw then some { s with st := sub f80 x y :: st } else none
    | _ => none
  | .fmulp =>
    match s.st with
    | x :: y :: st => if plainCW s.cw then some { s with st := mul f80 x y :: st } else none
    | _ => none
  | .fdivp =>
    match s.st with
    | x :: y :: st => if plainCW s.cw then some { s with st := div f80 x y :: st } else none
    | _ => none
  | .fucomip =>
    match s.st with
    | x :: y :: st => some { s.flags x y with st := y :: st }
    | _ => none
  | .fdrop =>
    match s.st with
    | _ :: st => some { s with st := st }
    | [] => none

/-- A line: an instruction, a local label, a jump forward to the next label of that number (`jmp 2f`, `js 1f`). -/
inductive FLine where
  | i (i : FIns)
  | lab (n : Nat)
  | jmp (n : Nat)
  | jcc (c : CC) (n : Nat)
  deriving DecidableEq, Repr

/-- Execution to the end of the text; `skip`: looking for a label. -/
def frun : List FLine → Option Nat → FS → Option FS
  | [], none, s => some s
  | [], some _, _ => none
  | .lab k :: l, some n, s => if k = n then frun l none s else frun l (some n) s
  | _ :: l, some n, s => frun l (some n) s
  | .i i :: l, none, s => (fexec sym i s).bind (frun l none)
  | .lab _ :: l, none, s => frun l none s
  | .jmp n :: l, none, s => frun l (some n) s
  | .jcc c n :: l, none, s =>
    match s.g.f with
    | some f => if c.holds f then frun l (some n) s else frun l none s
    | none => none

end
end Slimcc.FP
