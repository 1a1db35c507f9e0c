import Verif.Model.Basic
/-!
Layout of structures and unions (parse.c:3825-3903, with `align_to` codegen.c:521-525 and
`align_down` parse.c:186-188).

The C code computes in `int`; `Type.size` is `int64_t`. A signed overflow or a division by zero is
`ub`; a conversion of an `int64_t` to `int` wraps, as it does with the compilers that build slimcc
(implementation-defined in C). Of a member only what the layout depends on is kept. The members that
stay in the list (`cur->next = mem`) are the named ones and those that are not bit-fields; here each
gets its place in one list, and the unnamed bit-fields are removed at the end.
-/
set_option autoImplicit false
namespace Slimcc.Layout

/-- A value of the type `int`, or overflow. -/
def int (x : Int) : Outcome Int := if -2147483648 ≤ x ∧ x ≤ 2147483647 then .ok x else .ub

/-- Conversion to `int`. -/
def toInt (x : Int) : Int := x.bmod (2 ^ 32)

/-- codegen.c:523-525 `align_to`. -/
def alignTo (n align : Int) : Outcome Int := do
  let a ← int (n + align)
  let b ← int (a - 1)
  if align = 0 then .ub
  else int (b.tdiv align * align)

/-- parse.c:186-188 `align_down`. -/
def alignDown (n align : Int) : Outcome Int := do
  let a ← int (n - align)
  let b ← int (a + 1)
  alignTo b align

/-- slimcc.h:589-601 `Member`, before its place is known, with what is used of its type: `size`,
`align` and whether it is a structure or union. `width` is there for bit-fields. `altAlign` is 0 if
no alignment was given. -/
structure Member where
  size : Int
  align : Int
  aggregate : Bool
  named : Bool
  width : Option Int
  altAlign : Int
  deriving DecidableEq, Repr

/-- The place of a member: `offset` and `bit_offset`. -/
structure Placed where
  mem : Member
  offset : Int
  bitOffset : Int
  deriving DecidableEq, Repr

structure Result where
  members : List Placed
  size : Int
  align : Int
  deriving DecidableEq, Repr

/-- The condition of parse.c:3831 and 3882. -/
def Member.kept (m : Member) : Bool := m.width.isNone || m.named

/-- parse.c:3831-3836 and 3882-3887: the alignment after a member. -/
def altStep (packed : Bool) (alt : Int) (m : Member) : Int :=
  if m.kept then max (if packed then alt else max alt m.align) m.altAlign else alt

/-- parse.c:3837-3840. -/
def alignMember (m : Member) (bits : Int) : Outcome Int :=
  if m.altAlign ≠ 0 ∧ (m.altAlign > m.align ∨ m.aggregate = false) then do
    let a ← int (m.altAlign * 8)
    alignTo bits a
  else .ok bits

/-- parse.c:3842-3863: the place of a member and the bits used after it. -/
def placeMember (packed : Bool) (m : Member) (bits : Int) : Outcome (Placed × Int) :=
  match m.width with
  | some w =>
    if w = 0 then do
      let bits ← alignTo bits (toInt (m.size * 8))
      .ok (⟨m, 0, 0⟩, bits)
    else do
      let sz := toInt m.size
      let u ← int (sz * 8)
      if u = 0 then .ub
      else do
        let e ← int (bits + w)
        let e ← int (e - 1)
        let bits ← (if packed = false ∧ bits.tdiv u ≠ e.tdiv u then alignTo bits u else .ok bits)
        let ofs ← alignDown (bits.tdiv 8) sz
        let bits' ← int (bits + w)
        .ok (⟨m, ofs, bits.tmod u⟩, bits')
  | none => do
    let a ← (if packed then .ok 8 else int (m.align * 8))
    let bits ← alignTo bits a
    .ok (⟨m, bits.tdiv 8, 0⟩, toInt (bits + m.size * 8))

/-- parse.c:3830-3864, the loop. -/
def structLoop (packed : Bool) : List Member → Int → Int → Outcome (List Placed × Int × Int)
  | [], alt, bits => .ok ([], alt, bits)
  | m :: ms, alt, bits => do
    let bits ← alignMember m bits
    let (p, bits) ← placeMember packed m bits
    let (ps, r) ← structLoop packed ms (altStep packed alt m) bits
    .ok (p :: ps, r)

/-- parse.c:3825-3876 `struct_decl`. `alt` is the alignment given to the structure, or 0. -/
def structDecl (packed : Bool) (alt : Int) (ms : List Member) : Outcome Result := do
  let (ps, alt, bits) ← structLoop packed ms alt 0
  let align := if alt ≠ 0 then alt else 1
  let sz ←
    (if alt = 0 ∧ packed = true then alignTo bits 8
     else do
      let a ← int (align * 8)
      alignTo bits a)
  .ok ⟨ps.filter (fun p => p.mem.kept), sz.tdiv 8, align⟩

/-- parse.c:3881-3894, the loop. -/
def unionLoop (packed : Bool) : List Member → Int → Int → Outcome (Int × Int)
  | [], alt, size => .ok (alt, size)
  | m :: ms, alt, size => do
    let sz ← (match m.width with
      | some w => do
        let b ← alignTo w 8
        .ok (b.tdiv 8)
      | none => .ok (toInt m.size))
    unionLoop packed ms (altStep packed alt m) (max size sz)

/-- parse.c:3878-3903 `union_decl`. The members have been zeroed when they were allocated. -/
def unionDecl (packed : Bool) (alt : Int) (ms : List Member) : Outcome Result := do
  let (alt, size) ← unionLoop packed ms alt (-1)
  let align := if alt ≠ 0 then alt else 1
  let sz ← alignTo (toInt (max size 0)) align
  .ok ⟨(ms.filter Member.kept).map fun m => ⟨m, 0, 0⟩, sz, align⟩

end Slimcc.Layout
