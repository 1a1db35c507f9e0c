import Verif.Model.Layout
/-!
How structures are laid out on x86-64 (System V ABI 3.1.2, and the GCC attributes `packed` and
`aligned`), in bits from the start of the structure. Nothing here uses the functions of the model;
only its record of a member is the target of `Field.member`.
-/
set_option autoImplicit false
namespace Slimcc.Spec

/-- A declared member: the size and alignment of its type in bytes, the width if it is a bit-field,
and the alignment asked for with `_Alignas` or `aligned` (0 if none). -/
structure Field where
  size : Nat
  align : Nat
  aggregate : Bool
  named : Bool
  width : Option Nat
  alt : Nat
  deriving DecidableEq, Repr

def Field.member (f : Field) : Layout.Member :=
  ⟨f.size, f.align, f.aggregate, f.named, f.width.map Nat.cast, f.alt⟩

def PowTwo (a : Nat) : Prop := ∃ k, a = 2 ^ k

/-- What C requires of a member: alignments are powers of two; a bit-field has an integer type and is
not wider than it; only an unnamed bit-field may have width 0. -/
structure Field.Wf (f : Field) : Prop where
  align : PowTwo f.align
  alt : f.alt = 0 ∨ PowTwo f.alt
  bits : ∀ w, f.width = some w → PowTwo f.size ∧ w ≤ 8 * f.size ∧ (w = 0 → f.named = false)

/-- Unnamed bit-fields only reserve room. -/
def Field.isMember (f : Field) : Bool := f.width.isNone || f.named

/-- The number of bits a member occupies. -/
def Field.len (f : Field) : Nat := f.width.getD (8 * f.size)

def Least (P : Nat → Prop) (n : Nat) : Prop := P n ∧ ∀ m, P m → n ≤ m

/-- The alignment of a member that is not a bit-field. -/
def Field.reqAlign (packed : Bool) (f : Field) : Nat := max (if packed then 1 else f.align) f.alt

/-- `s` is a bit position where the member may start if everything before it ends at `e`:
an ordinary member at a multiple of its alignment; a bit-field of width 0 at a boundary of its type;
another bit-field where it does not cross a boundary of its type, or anywhere if packed. -/
def Fits (packed : Bool) (e : Nat) (f : Field) (s : Nat) : Prop :=
  e ≤ s ∧
  match f.width with
  | none => 8 * f.reqAlign packed ∣ s
  | some w =>
    (f.alt ≠ 0 → 8 * f.alt ∣ s) ∧
    (w = 0 → 8 * f.size ∣ s) ∧
    (w ≠ 0 → packed = false → s / (8 * f.size) = (s + w - 1) / (8 * f.size))

/-- The members of a list one after the other, each at the first position where it may start;
`pl` has the positions and `used` is where the last one ends. -/
inductive Laid (packed : Bool) : Nat → List Field → List (Field × Nat) → Nat → Prop where
  | nil (e : Nat) : Laid packed e [] [] e
  | cons (e : Nat) (f : Field) (s : Nat) (fs : List Field) (pl : List (Field × Nat)) (used : Nat) :
    Least (Fits packed e f) s → Laid packed (s + f.len) fs pl used → Laid packed e (f :: fs) ((f, s) :: pl) used

/-- The alignment of a structure or union: the largest of 1, the one asked for, and those of its
members. -/
def AlignIs (packed : Bool) (alt : Nat) (fs : List Field) (a : Nat) : Prop :=
  let cand (x : Nat) : Prop := x = 1 ∨ x = alt ∨ ∃ f ∈ fs, f.isMember = true ∧ (x = f.alt ∨ (packed = false ∧ x = f.align))
  cand a ∧ ∀ x, cand x → x ≤ a

/-- How the position `s` of a member is recorded: ordinary members by their byte offset, bit-fields by
the byte offset of the unit of their type that contains the first bit, and the bit in the unit. -/
def record (p : Field × Nat) : Layout.Placed :=
  match p.1.width with
  | none => ⟨p.1.member, (p.2 / 8 : Nat), 0⟩
  | some _ => ⟨p.1.member, (p.2 / (8 * p.1.size) * p.1.size : Nat), (p.2 % (8 * p.1.size) : Nat)⟩

/-- Room for the members in bits, alignments and moves to the next unit included. -/
def room : List Field → Nat
  | [] => 0
  | f :: fs => 8 * f.size + (if f.width.isSome then 8 * f.size else 0) + 8 * f.align + 8 * f.alt + room fs

end Slimcc.Spec

namespace Slimcc.Spec

/-- The first bit of a member in the result, and the bit after its last one. -/
def startBit (p : Layout.Placed) : Int := 8 * p.offset + p.bitOffset
def endBit (p : Layout.Placed) : Int := startBit p + p.mem.width.getD (8 * p.mem.size)

end Slimcc.Spec
