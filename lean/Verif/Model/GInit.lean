/-
Static initialisers: parse.c:2031-2169 (`read_buf`, `write_gvar_data`,
`gvar_initializer`) and the data part of `emit_data`, codegen.c:3966-3992.

Simplifications, for the whole file:
* An expression in the initialiser is its value: an integer (`num`, the value
  before conversion to the type of the element), the bytes of a floating-point
  value of the element's type, an address constant, or a constant object the
  initialiser is copied from.  How it is evaluated is not modelled here.
* `EV_CONST` (`constexpr`), where addresses are errors, is not modelled.
* `int` arithmetic on offsets does not overflow.
-/
set_option autoImplicit false

namespace Slimcc.GInit

abbrev Byte := BitVec 8
abbrev Word := BitVec 64

mutual
/-- Types, as far as they matter: integers and pointers (`num`, with their size
and whether they are `_Bool`), floating types, arrays, structures and unions. -/
inductive GTy where
  | num (size : Nat) (isBool : Bool)
  | flo (size : Nat)
  | arr (base : GTy) (len : Nat)
  | agg (isUnion : Bool) (size : Nat) (ms : GMems)
/-- Members, slimcc.h:589-601: `offset`, `bit_offset` and `bit_width` of a
bit-field, type. -/
inductive GMems where
  | nil
  | cons (ofs : Nat) (bf : Option (Nat × Nat)) (ty : GTy) (rest : GMems)
end

def GTy.size : GTy → Nat
  | .num s _ | .flo s | .agg _ s _ => s
  | .arr b n => b.size * n

/-- slimcc.h, `Relocation`. -/
structure Rel where
  ofs : Nat
  label : String
  addend : Int
  deriving DecidableEq, Repr

/-- `init_data` (its size and contents). -/
structure Buf where
  n : Nat
  at_ : Nat → Byte

/-- A variable with an initialiser: data and relocations. -/
structure Data where
  buf : Buf
  rels : List Rel

mutual
/-- `Initializer`, parse.c:52-84.  `list` has one entry for each element or
member, and for a union the index of the member that is initialised. -/
inductive Init where
  | none
  | list (es : Inits) (mem : Nat)
  | num (v : Word)
  | flo (bs : List Byte)
  | addr (label : String) (addend : Int)
  | copy (src : Data) (sofs : Nat)
inductive Inits where
  | nil
  | cons (i : Init) (rest : Inits)
end

inductive Fail where
  /-- undefined behaviour of the compiler: access outside a buffer, a shift -/
  | ub
  /-- a diagnostic -/
  | diag
  /-- `internal_error` -/
  | internal
  deriving DecidableEq, Repr

abbrev M := Except Fail

/-- Byte `k` of a 64-bit value in memory. -/
def byteOf (v : Word) (k : Nat) : Byte := (v >>> (8 * k)).setWidth 8

/-- `memcpy(buf + ofs, ..., sz)`. -/
def Buf.wr (b : Buf) (ofs sz : Nat) (f : Nat → Byte) : M Buf :=
  if ofs + sz ≤ b.n then
    .ok { b with at_ := fun i => if ofs ≤ i ∧ i < ofs + sz then f (i - ofs) else b.at_ i }
  else .error .ub

/-- The first `k` bytes at `ofs` as a little-endian number. -/
def rdBytes (f : Nat → Byte) (ofs : Nat) : Nat → Word
  | 0 => 0
  | k + 1 => rdBytes f ofs k ||| ((f (ofs + k)).setWidth 64 <<< (8 * k))

/-- `read_buf`, parse.c:2031-2041. -/
def readBuf (b : Buf) (ofs sz : Nat) : M Word :=
  if sz = 1 ∨ sz = 2 ∨ sz = 4 ∨ sz = 8 then
    if ofs + sz ≤ b.n then .ok (rdBytes b.at_ ofs sz) else .error .ub
  else .error .internal

/-- `(1L << bit_width) - 1`, parse.c:2086: the shift is undefined from 63 on. -/
def maskOf (w : Nat) : M Word := if w < 63 then .ok (((1 : Word) <<< w) - 1) else .error .ub

/-- Storing a bit-field, parse.c:2083-2089.  The value is converted to the type
of the structure, that is, not at all (parse.c:2081). -/
def writeBits (b : Buf) (ofs sz bofs w : Nat) (v : Word) : M Buf := do
  let old ← readBuf b ofs sz
  let mask ← maskOf w
  let combined := old ||| ((v &&& mask) <<< bofs)
  b.wr ofs sz (byteOf combined)

/-- The loop of parse.c:2117-2131; `rels` are the source's relocations from
`srel` on; `fuel` is `ty->size - pos`. -/
def copyLoop (src : Data) (sofs off size : Nat) : Nat → Nat → List Rel → Buf → List Rel →
    M (Buf × List Rel)
  | 0, _, _, b, out => .ok (b, out)
  | fuel + 1, pos, rels, b, out =>
    if pos < size ∧ pos + sofs < src.buf.n then
      match rels with
      | r :: rest =>
        if r.ofs = pos + sofs then
          copyLoop src sofs off size fuel (pos + 8) rest b
            (out ++ [{ ofs := pos + off, label := r.label, addend := r.addend }])
        else do
          let b ← b.wr (pos + off) 1 (fun _ => src.buf.at_ (pos + sofs))
          copyLoop src sofs off size fuel (pos + 1) rels b out
      | [] => do
        let b ← b.wr (pos + off) 1 (fun _ => src.buf.at_ (pos + sofs))
        copyLoop src sofs off size fuel (pos + 1) [] b out
    else .ok (b, out)

/-- Initialising with an expression, parse.c:2097-2164. -/
def writeLeaf (t : GTy) (i : Init) (off : Nat) (b : Buf) (rels : List Rel) : M (Buf × List Rel) :=
  match i with
  | .copy src sofs =>
    match t with
    | .arr .. => .error .diag
    | _ => copyLoop src sofs off t.size t.size 0 (src.rels.dropWhile (fun r => r.ofs < sofs)) b rels
  | .addr l a =>
    match t with
    | .num 8 false => .ok (b, rels ++ [{ ofs := off, label := l, addend := a }])
    | _ => .error .diag
  | .num v =>
    match t with
    | .num s isBool => do
      let v : Word := if isBool then (if v = 0 then 0 else 1) else v
      let b ← b.wr off s (byteOf v)
      .ok (b, rels)
    | .arr .. => .error .diag
    | _ => .error .internal
  | .flo bs =>
    match t with
    | .flo _ => do
      let b ← b.wr off bs.length (fun k => bs.getD k 0)
      .ok (b, rels)
    | .arr .. => .error .diag
    | _ => .error .internal
  | _ => .error .internal

/-- A bit-field with an expression is handled on the spot, parse.c:2078-2091;
anything else by the recursive call, `r`. -/
def storeMember (bf : Option (Nat × Nat)) (e : Init) (t : GTy) (ofs : Nat) (b : Buf)
    (rels : List Rel) (r : M (Buf × List Rel)) : M (Buf × List Rel) :=
  match bf, e with
  | some (bofs, w), .num v => do
    let b ← writeBits b ofs t.size bofs w v
    .ok (b, rels)
  | _, _ => r

mutual
/-- `write_gvar_data`, parse.c:2053-2169. -/
def write : Init → GTy → Nat → Buf → List Rel → M (Buf × List Rel)
  | .none, _, _, b, rels => .ok (b, rels)
  | .list es _, .arr t n, off, b, rels => writeArr es t n off 0 b rels
  | .list es k, .agg u _ ms, off, b, rels => writeMems es ms u k 0 off b rels
  | i, t, off, b, rels => writeLeaf t i off b rels
/-- The loop over elements, parse.c:2060-2063, from index `i` on. -/
def writeArr : Inits → GTy → Nat → Nat → Nat → Buf → List Rel → M (Buf × List Rel)
  | .cons e es, t, n, off, i, b, rels =>
    if i < n then do
      let (b, rels) ← write e t (off + t.size * i) b rels
      writeArr es t n off (i + 1) b rels
    else .ok (b, rels)
  | .nil, _, n, _, i, b, rels => if i < n then .error .ub else .ok (b, rels)
/-- The loop over members, parse.c:2067-2093; `k` is the index of `initmem`, `j`
that of the member. -/
def writeMems : Inits → GMems → Bool → Nat → Nat → Nat → Buf → List Rel → M (Buf × List Rel)
  | .cons e es, .cons o bf t ms, u, k, j, off, b, rels =>
    if u ∧ j ≠ k then writeMems es ms u k (j + 1) off b rels
    else do
      let (b, rels) ← storeMember bf e t (off + o) b rels (write e t (off + o) b rels)
      writeMems es ms u k (j + 1) off b rels
  | .nil, .cons .., _, _, _, _, _, _ => .error .ub
  | _, .nil, _, _, _, _, b, rels => .ok (b, rels)
end

/-- `gvar_initializer`, parse.c:2175-2186: the buffer comes from `calloc`. -/
def gvarData (t : GTy) (i : Init) : M Data := do
  let (b, rels) ← write i t 0 { n := t.size, at_ := fun _ => 0 } []
  .ok { buf := b, rels := rels }

/-! ### The assembler text -/

/-- The directives of codegen.c:3974-3989. -/
inductive Dir where
  | quad (v : BitVec 64)
  | int (v : BitVec 32)
  | word (v : BitVec 16)
  | byte (v : BitVec 8)
  | addr (label : String) (addend : Int)
  deriving DecidableEq, Repr

/-- The `while` loop, codegen.c:3970-3979. -/
def emitBytes (f : Nat → Byte) (pos rem : Nat) : List Dir :=
  if rem ≥ 8 then .quad (rdBytes f pos 8) :: emitBytes f (pos + 8) (rem - 8)
  else if rem ≥ 4 then .int ((rdBytes f pos 4).setWidth 32) :: emitBytes f (pos + 4) (rem - 4)
  else if rem ≥ 2 then .word ((rdBytes f pos 2).setWidth 16) :: emitBytes f (pos + 2) (rem - 2)
  else if rem ≥ 1 then .byte (f pos) :: emitBytes f (pos + 1) (rem - 1)
  else []
termination_by rem

/-- The outer loop, codegen.c:3966-3992.  A negative `rem` emits nothing, as
zero does. -/
def emitFrom (d : Buf) : List Rel → Nat → List Dir
  | [], pos => emitBytes d.at_ pos (d.n - pos)
  | r :: rs, pos =>
    emitBytes d.at_ pos (r.ofs - pos) ++ .addr r.label r.addend ::
      emitFrom d rs (pos + (r.ofs - pos) + 8)

def emitData (d : Data) : List Dir := emitFrom d.buf d.rels 0

end Slimcc.GInit
