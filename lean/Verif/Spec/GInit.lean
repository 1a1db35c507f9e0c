/-
Specification for C22: what an initialised object holds.

An initialiser gives values to *cells*: a cell is a range of bits of the object
with the bits of the value converted to the cell's type, or eight bytes that
hold an address.  Everything else is zero.
-/
import Verif.Model.GInit
set_option autoImplicit false

namespace Slimcc.GInitSpec
open Slimcc.GInit

/-- A byte of the assembled object: known now, or byte `k` of an address the
linker fills in. -/
inductive Out where
  | byte (b : Byte)
  | part (label : String) (addend : Int) (k : Nat)
  deriving DecidableEq, Repr

/-- What the assembler makes of a directive (little-endian). -/
def asmDir : Dir → List Out
  | .quad v => (List.range 8).map (fun k => .byte ((v >>> (8 * k)).setWidth 8))
  | .int v => (List.range 4).map (fun k => .byte ((v >>> (8 * k)).setWidth 8))
  | .word v => (List.range 2).map (fun k => .byte ((v >>> (8 * k)).setWidth 8))
  | .byte v => [.byte v]
  | .addr l a => (List.range 8).map (.part l a)

def assemble (ds : List Dir) : List Out := ds.flatMap asmDir

inductive Cell where
  /-- bits `lo` to `lo + width - 1` of the object -/
  | bits (lo width : Nat) (val : Nat → Bool)
  /-- an address in the eight bytes at `ofs` -/
  | addr (ofs : Nat) (label : String) (addend : Int)

/-- The type is `_Bool`. -/
def isBoolTy : GTy → Bool
  | .num _ b => b
  | _ => false

/-- Conversion to an integer type: `_Bool` is 0 or 1, otherwise the low bits. -/
def convBit (isBool : Bool) (v : Word) (j : Nat) : Bool :=
  if isBool then decide (v ≠ 0 ∧ j = 0) else v.getLsbD j

/-- Cells of a copied object: its bytes and addresses that lie in the part that
is copied. -/
def copyCells (src : Data) (sofs size off : Nat) : List Cell :=
  ((List.range size).filter (fun p => decide (p + sofs < src.buf.n) &&
      src.rels.all (fun r => decide (¬ (r.ofs ≤ p + sofs ∧ p + sofs < r.ofs + 8))))).map
    (fun p => .bits (8 * (off + p)) 8 (src.buf.at_ (p + sofs)).getLsbD) ++
  (src.rels.filter (fun r => decide (sofs ≤ r.ofs ∧ r.ofs < sofs + size))).map
    (fun r => .addr (off + (r.ofs - sofs)) r.label r.addend)

/-- The cells of a member: a bit-field is one cell; `cs` otherwise. -/
def memberCells (bf : Option (Nat × Nat)) (e : Init) (t : GTy) (ofs : Nat) (cs : List Cell) :
    List Cell :=
  match bf, e with
  | some (bofs, w), .num v => [.bits (8 * ofs + bofs) w (convBit (isBoolTy t) v)]
  | _, _ => cs

mutual
/-- The cells an initialiser gives values to, for an object of type `t` at byte
`off`. -/
def cells : Init → GTy → Nat → List Cell
  | .none, _, _ => []
  | .list es _, .arr t n, off => cellsArr es t n off 0
  | .list es k, .agg u _ ms, off => cellsMems es ms u k 0 off
  | .num v, .num s isBool, off => [.bits (8 * off) (8 * s) (convBit isBool v)]
  | .flo bs, .flo _, off =>
    [.bits (8 * off) (8 * bs.length) (fun j => (bs.getD (j / 8) 0).getLsbD (j % 8))]
  | .addr l a, _, off => [.addr off l a]
  | .copy src sofs, t, off => copyCells src sofs t.size off
  | _, _, _ => []
/-- Elements of an array. -/
def cellsArr : Inits → GTy → Nat → Nat → Nat → List Cell
  | .cons e es, t, n, off, i =>
    if i < n then cells e t (off + t.size * i) ++ cellsArr es t n off (i + 1) else []
  | .nil, _, _, _, _ => []
/-- Members; of a union only member `k`. -/
def cellsMems : Inits → GMems → Bool → Nat → Nat → Nat → List Cell
  | .cons e es, .cons o bf t ms, u, k, j, off =>
    if u ∧ j ≠ k then cellsMems es ms u k (j + 1) off
    else
      memberCells bf e t (off + o) (cells e t (off + o)) ++ cellsMems es ms u k (j + 1) off
  | _, _, _, _, _, _ => []
end

/-- Bit `p` of the assembled object is `b`. -/
def BitIs (out : List Out) (p : Nat) (b : Bool) : Prop :=
  ∃ x, out[p / 8]? = some (.byte x) ∧ x.getLsbD (p % 8) = b

/-- Bit `p` belongs to the cell. -/
def Cell.covers (p : Nat) : Cell → Prop
  | .bits lo w _ => lo ≤ p ∧ p < lo + w
  | .addr o _ _ => 8 * o ≤ p ∧ p < 8 * (o + 8)

/-- The assembled object holds the cells, and zero elsewhere. -/
structure Holds (out : List Out) (size : Nat) (cs : List Cell) : Prop where
  length : out.length = size
  bits : ∀ lo w val, Cell.bits lo w val ∈ cs → ∀ j, j < w → BitIs out (lo + j) (val j)
  addrs : ∀ o l a, Cell.addr o l a ∈ cs → ∀ k, k < 8 → out[o + k]? = some (.part l a k)
  rest : ∀ p, p < 8 * size → (∀ c ∈ cs, ¬ c.covers p) → BitIs out p false

/-! ### The types and initialisers considered -/

/-- The bits of a member. -/
def region (o : Nat) (bf : Option (Nat × Nat)) (t : GTy) : Nat × Nat :=
  match bf with
  | some (b, w) => (8 * o + b, 8 * o + b + w)
  | none => (8 * o, 8 * (o + t.size))

mutual
/-- A type as layout makes it: members inside the object; in a structure one
after the other; a bit-field inside its storage unit, which is inside the
object. -/
def WF : GTy → Prop
  | .num s _ => s = 1 ∨ s = 2 ∨ s = 4 ∨ s = 8
  | .flo _ => True
  | .arr b _ => WF b
  | .agg u s ms => WFm ms u 0 s
/-- `prev` is the end of the member before, in bits. -/
def WFm : GMems → Bool → Nat → Nat → Prop
  | .nil, _, _, _ => True
  | .cons o bf t ms, u, prev, s =>
    WF t ∧ o + t.size ≤ s ∧ (u = false → prev ≤ (region o bf t).1) ∧
    (match bf with
     | some (b, w) => (t.size = 1 ∨ t.size = 2 ∨ t.size = 4 ∨ t.size = 8) ∧ b + w ≤ 8 * t.size ∧
         w < 63 ∧ ∃ sz b, t = .num sz b
     | none => True) ∧
    WFm ms u (region o bf t).2 s
end

/-- A constant object to copy from: its addresses lie in order and apart, and the
part copied does not cut one. -/
structure SrcOk (src : Data) (sofs size : Nat) : Prop where
  sorted : src.rels.Pairwise (fun a b => a.ofs + 8 ≤ b.ofs)
  inside : ∀ r ∈ src.rels, r.ofs + 8 ≤ src.buf.n
  whole : ∀ r ∈ src.rels, r.ofs + 8 ≤ sofs ∨ (sofs ≤ r.ofs ∧ r.ofs + 8 ≤ sofs + size) ∨
    sofs + size ≤ r.ofs

mutual
/-- An initialiser of the shape of the type. -/
def Fits : Init → GTy → Prop
  | .none, _ => True
  | .list es _, .arr t n => FitsArr es t n
  | .list es _, .agg _ _ ms => FitsMems es ms
  | .num _, .num _ _ => True
  | .flo bs, .flo s => bs.length ≤ s
  | .addr _ _, .num s b => s = 8 ∧ b = false
  | .copy src sofs, .num s _ => SrcOk src sofs s
  | .copy src sofs, .flo s => SrcOk src sofs s
  | .copy src sofs, .agg _ s _ => SrcOk src sofs s
  | _, _ => False
/-- One for each of `n` elements. -/
def FitsArr : Inits → GTy → Nat → Prop
  | .nil, _, n => n = 0
  | .cons e es, t, n => 0 < n ∧ Fits e t ∧ FitsArr es t (n - 1)
/-- One for each member; a bit-field has a number or nothing, and one of type
`_Bool` has 0 or 1. -/
def FitsMems : Inits → GMems → Prop
  | .nil, .nil => True
  | .cons e es, .cons _ bf t ms =>
    Fits e t ∧ (bf ≠ none → e = .none ∨ ∃ v, e = .num v ∧ (isBoolTy t = true → v = 0 ∨ v = 1)) ∧ FitsMems es ms
  | _, _ => False
end

end Slimcc.GInitSpec
