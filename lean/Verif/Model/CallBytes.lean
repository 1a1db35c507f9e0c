/-
The bytes of arguments and results: codegen.c:1226-1278, 1376-1405, 3995-4022,
4117-4150.

Simplifications, for the whole file:
* Addresses are natural numbers (no wrap-around).
* Arguments are in memory before they are loaded into registers.  With `-O` a
  constant, or the first argument, can be computed straight into its register
  (codegen.c:1423-1453); that is not modelled here.
* A register is its eight low bytes; the upper half of a vector register is not
  modelled.
-/
import Verif.Model.CallConv
import Verif.Model.MemCopy
set_option autoImplicit false

namespace Slimcc.CC

abbrev Byte := BitVec 8
abbrev Bytes := Nat → Byte
abbrev Memory := Nat → Byte

/-- Registers by number, in the order of arguments (or of results: `%rax`,
`%rdx`). -/
structure RF where
  gp : Nat → Bytes
  fp : Nat → Bytes

def RF.get (f : RF) : Reg → Bytes
  | .gp n => f.gp n
  | .fp n => f.fp n

def RF.set (f : RF) (r : Reg) (b : Bytes) : RF :=
  match r with
  | .gp n => { f with gp := fun k => if k = n then b else f.gp k }
  | .fp n => { f with fp := fun k => if k = n then b else f.fp k }

/-- A load of `n` bytes; `up` is what the rest of the register becomes. -/
def ld (m : Memory) (a n : Nat) (up : Bytes) : Bytes := fun i => if i < n then m (a + i) else up i

/-- A store of the `n` low bytes. -/
def st (m : Memory) (a n : Nat) (b : Bytes) : Memory :=
  fun x => if a ≤ x ∧ x < a + n then b (x - a) else m x

/-- How many bytes `place_reg_arg` loads at a time, codegen.c:1377-1404: eight of
a structure or union, even if it is smaller. -/
def loadSize : CTy → Nat
  | .agg .. => 8
  | t => t.size

/-- `place_reg_arg`, codegen.c:1376-1405, for the registers `rs` from eightbyte
`k` on.  `up` stands for the extension of small integers. -/
def placeParts (up : Bytes) (t : CTy) (m : Memory) (src : Nat) : List Reg → Nat → RF → RF
  | [], _, f => f
  | r :: rs, k, f => placeParts up t m src rs (k + 1) (f.set r (ld m (src + 8 * k) (loadSize t) up))

/-- `shr $8*n` on a 64-bit register. -/
def shrBytes (b : Bytes) (n : Nat) : Bytes := fun i => if i + n < 8 then b (i + n) else 0

/-- `store_gp2`, codegen.c:4007-4022, from offset `ofs` on. -/
def storeGp2 (b : Bytes) (sz : Nat) (dst : Nat) (m : Memory) (ofs : Nat) : Bytes × Memory :=
  let p := MemCopy.p2 (sz - ofs)
  let m := st m (dst + ofs) p b
  if ofs + p ≥ sz then (b, m) else storeGp2 (shrBytes b p) sz dst m (ofs + p)
termination_by sz - ofs
decreasing_by have := MemCopy.p2_pos (sz - ofs); omega

/-- `store_fp`, codegen.c:3995-4005; `none` is `internal_error`. -/
def storeFp (b : Bytes) (sz : Nat) (dst : Nat) (m : Memory) : Option Memory :=
  if sz = 4 ∨ sz = 8 then some (st m dst sz b) else none

/-- Storing one part of a parameter, codegen.c:4130-4149; a general register is
shifted in the process. -/
def storePart (dst : Nat) (f : RF) (m : Memory) : Reg × Nat × Nat → Option (RF × Memory)
  | (.fp n, o, sz) => (storeFp (f.fp n) sz (dst + o) m).map (f, ·)
  | (.gp n, o, sz) =>
    let (b, m) := storeGp2 (f.gp n) sz (dst + o) m 0
    some (f.set (.gp n) b, m)

def storeParts (dst : Nat) : List (Reg × Nat × Nat) → RF → Memory → Option (RF × Memory)
  | [], f, m => some (f, m)
  | p :: ps, f, m => (storePart dst f m p).bind (fun (f, m) => storeParts dst ps f m)

/-- An argument: its type, where the caller has it and where the callee wants
it. -/
structure Arg where
  ty : CTy
  src : Nat
  dst : Nat

/-- The register arguments of a call, codegen.c:1417-1455, loaded from the
caller's memory. -/
def passAll (up : Bytes) (m : Memory) : List Arg → List Slot → Nat → Nat → RF → RF
  | a :: as, .inRegs :: ss, gp, fp, f =>
    let (rs, gp', fp') := placeRegArg a.ty gp fp
    passAll up m as ss gp' fp' (placeParts up a.ty m a.src rs 0 f)
  | _ :: as, .onStack _ :: ss, gp, fp, f => passAll up m as ss gp fp f
  | _, _, _, _, f => f

/-- The register parameters of a function, codegen.c:4117-4150, stored to the
callee's frame. -/
def recvAll : List Arg → List Slot → Nat → Nat → RF → Memory → Option Memory
  | a :: as, .inRegs :: ss, gp, fp, f, m =>
    let (ps, gp', fp') := storeParam a.ty gp fp
    (storeParts a.dst ps f m).bind (fun (f, m) => recvAll as ss gp' fp' f m)
  | _ :: as, .onStack _ :: ss, gp, fp, f, m => recvAll as ss gp fp f m
  | _, _, _, _, _, m => some m

/-! ### Results -/

/-- Eightbyte at `ofs` is in a vector register, codegen.c:1233, 1260. -/
def retFlo (t : CTy) (ofs : Nat) : Bool := if ofs = 0 then hasFlonum1 t else hasFlonum2 t

/-- `copy_struct_reg`'s variables: what address `%rax` and `%rcx` hold, which of
the two `sptr` names, the counters and the result registers. -/
structure RetSt where
  ax : Option Nat
  cx : Option Nat
  useCx : Bool
  gp : Nat
  fp : Nat
  f : RF

/-- codegen.c:1271. -/
def regSz (chunk : Nat) : Nat := if chunk > 4 then 8 else if chunk > 2 then 4 else if chunk > 1 then 2 else 1

/-- The loop body of `copy_struct_reg`, codegen.c:1257-1277; `none` if an address
is used that the register no longer holds.  A 32-bit load clears the upper half,
a smaller one leaves the rest of the register. -/
def retLoad (t : CTy) (m : Memory) (ofs : Nat) (s : RetSt) : Option RetSt :=
  let chunk := min 8 (t.size - ofs)
  if retFlo t ofs then
    (if s.useCx then s.cx else s.ax).map (fun a =>
      { s with fp := s.fp + 1
               f := s.f.set (.fp s.fp) (ld m (a + ofs) (if chunk = 4 then 4 else 8) (fun _ => 0)) })
  else
    let s := if s.gp = 0 then { s with cx := s.ax, useCx := true } else s
    s.cx.map (fun a =>
      { s with ax := if s.gp = 0 then none else s.ax
               gp := s.gp + 1
               f := s.f.set (.gp s.gp) (ld m (a + ofs) (regSz chunk)
                 (if regSz chunk = 4 then (fun _ => 0) else s.f.gp s.gp)) })

/-- `copy_struct_reg`, codegen.c:1252-1278, from `ofs` on. -/
def retLoads (t : CTy) (m : Memory) (ofs : Nat) (s : RetSt) : Option RetSt :=
  if ofs < t.size then (retLoad t m ofs s).bind (retLoads t m (ofs + 8)) else some s
termination_by t.size - ofs

/-- `copy_struct_reg`: the result is at address `src`. -/
def retRegs (t : CTy) (m : Memory) (src : Nat) (f : RF) : Option RF :=
  (retLoads t m 0 { ax := some src, cx := none, useCx := false, gp := 0, fp := 0, f := f }).map (·.f)

/-- `copy_ret_buffer`, codegen.c:1226-1250, from `ofs` on. -/
def retStores (t : CTy) (dst : Nat) (ofs gp fp : Nat) (f : RF) (m : Memory) : Memory :=
  if ofs < t.size then
    let chunk := min 8 (t.size - ofs)
    if retFlo t ofs then
      retStores t dst (ofs + 8) gp (fp + 1) f (st m (dst + ofs) (if chunk = 4 then 4 else 8) (f.fp fp))
    else
      let (b, m) := storeGp2 (f.gp gp) chunk (dst + ofs) m 0
      retStores t dst (ofs + 8) (gp + 1) fp (f.set (.gp gp) b) m
  else m
termination_by t.size - ofs

end Slimcc.CC
