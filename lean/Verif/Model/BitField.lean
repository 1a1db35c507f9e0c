import Verif.Model.Gen
/-!
Model of the code generated for reading and writing a bit-field (codegen.c:646-704).

The address of the structure's storage unit is in %rax for a load and in a saved temporary for a
store; `mem->offset` is part of the address (codegen.c:737-741, 775-779) or, when the optimiser
folds it, the displacement `ofs` of the load.
-/
set_option autoImplicit false
namespace Slimcc.BF
open Slimcc.X86 Slimcc.Ty Slimcc.Gen

/-- The parts of `Member` (slimcc.h:589-601) a bit-field access looks at: the declared type, the width
and the bit position inside the storage unit. -/
structure BF where
  ty : ITy
  w : Nat
  bo : Nat
  deriving DecidableEq, Repr

/-- codegen.c:282-290 `bitwidth_to_ty`. -/
def altTy (w : Nat) (uns : Bool) : Option ITy :=
  if w = 64 then some ⟨.llong, uns⟩
  else if w = 32 then some ⟨.int, uns⟩
  else if w = 16 then some ⟨.short, uns⟩
  else if w = 8 then some ⟨.char, uns⟩
  else none

/-- codegen.c:649, 666: the condition for a plain load or store. -/
def alt (f : BF) : Option ITy :=
  if f.bo = f.bo / 8 * 8 then altTy f.w f.ty.uns else none

/-- codegen.c:656, 699: the number of bits above the field when it is at the top of the register. -/
def shft (f : BF) : Nat := (if f.ty.size = 8 then 64 else 32) - f.w

/-- codegen.c:656-659 and 699-702. A negative count (a field that crosses its unit, which only packed
structures have) is printed as a negative immediate, which the assembler takes modulo 256. -/
def extract (f : BF) : List Ins :=
  (if (shft f : Int) - f.bo ≠ 0 then [.shft .shl (rop f.ty) (.imm (((shft f : Int) - f.bo) % 256).toNat) .ax] else []) ++
  [.shft (if f.ty.uns then .shr else .sar) (rop f.ty) (.imm (shft f)) .ax]

/-- codegen.c:646-661 `gen_bitfield_load`; codegen.c:787-806 `load3` for an integer type is
`load_extend_int`. -/
def load (f : BF) (ofs : Int) : List Ins :=
  match alt f with
  | some t => [loadExt t (.off .ax (ofs + (f.bo / 8 : Nat))) .ax]
  | none => loadExt f.ty (.off .ax ofs) .ax :: extract f

/-- codegen.c:675, 681: the bits of the value, and the bits of the unit that are kept. The shift
`1 << w` is by at most 63 here, since width 64 takes the other path at offset 0. -/
def mask (w : Nat) : Word := BitVec.ofNat 64 (2 ^ w - 1)
def keep (f : BF) : Word :=
  let msk := ~~~(mask f.w <<< f.bo)
  if f.ty.size = 4 ∧ f.w + f.bo = 32 then zx 4 msk else msk

/-- codegen.c:663-704 `gen_bitfield_store`; codegen.c:834-860 `store3` for an integer type is a move of
its size. `l` is where the address was saved. -/
def store (f : BF) (stkSz : Nat) (l : TLoc) (isVoid : Bool) : List Ins :=
  match alt f with
  | some t =>
    popIn stkSz true l ++
    [.mov t.size (.reg .ax) (.mem (.off (popReg l) (f.bo / 8 : Nat)))] ++
    (if !isVoid && t.size < 4 then [.movx (!t.uns) t.size 4 (.reg .ax) .ax] else [])
  | none =>
    [.mov (rop f.ty) (.reg .ax) (.reg .cx)] ++
    immAnd (rop f.ty) .cx (mask f.w) ++
    popIn stkSz true l ++
    [loadExt f.ty (.off (popReg l) 0) .ax] ++
    immAnd (rop f.ty) .ax (keep f) ++
    (if f.bo ≠ 0 then [.shft .shl (rop f.ty) (.imm f.bo) .cx] else []) ++
    [.alu .or (rop f.ty) (.reg .cx) (.reg .ax)] ++
    [.mov f.ty.size (.reg .ax) (.mem (.off (popReg l) 0))] ++
    (if isVoid then [] else extract f)

end Slimcc.BF
