import Verif.Model.GInit
/-!
Reading an object with known contents at compile time: parse.c:2810-2851 and 3085-3099.

Simplifications, for the whole file:
* The variable and the offset the designator stands for are given (`eval_var`, modelled in Addr); so are
  the results of `is_const_var` and the absence of `volatile`.
* Shifting a negative `int64_t` to the left and to the right is as on two's complement hosts.
-/
set_option autoImplicit false
namespace Slimcc.GInit

/-- slimcc.h `Obj`, as far as it matters here. -/
structure CVar where
  initData : Option Data
  constexprData : Option Data
  weak : Bool
  isConst : Bool
  size : Nat

/-- parse.c:2813-2819: no relocation overlaps the part read. -/
def clearOfRels (ofs : Int) (sz : Nat) : List Rel → Bool
  | [] => true
  | r :: rs =>
    if (r.ofs : Int) + 8 ≤ ofs then clearOfRels ofs sz rs
    else if ofs + sz ≤ r.ofs then true
    else false

/-- parse.c:2810-2821 `is_static_const_var`; `opt` is `opt_optimize`. -/
def isStaticConst (opt : Bool) (v : CVar) (ofs : Int) (sz : Nat) : Bool :=
  match v.initData with
  | none => false
  | some d => if opt = false ∨ v.weak = true ∨ v.isConst = false then false else clearOfRels ofs sz d.rels

/-- parse.c:2823-2837 `eval_constexpr_data`: the data and the offset to read at. -/
def constData (opt : Bool) (v : CVar) (ofs : Int) (sz : Nat) : M (Buf × Nat) :=
  if ¬ (v.constexprData.isSome = true ∨ isStaticConst opt v ofs sz = true) then .error .diag
  else if ofs < 0 ∨ (v.size : Int) < ofs + sz then .error .diag
  else match v.constexprData, v.initData with
    | some d, _ => .ok (d.buf, ofs.toNat)
    | none, some d => .ok (d.buf, ofs.toNat)
    | none, none => .error .diag

/-- parse.c:2839-2851 `eval_sign_extend` of an integer type of size `sz`. -/
def signExtend (sz : Nat) (uns : Bool) (x : Word) : M Word :=
  if sz = 8 then .ok x
  else if sz = 1 then .ok (if uns then (x.setWidth 8).setWidth 64 else (x.setWidth 8).signExtend 64)
  else if sz = 2 then .ok (if uns then (x.setWidth 16).setWidth 64 else (x.setWidth 16).signExtend 64)
  else if sz = 4 then .ok (if uns then (x.setWidth 32).setWidth 64 else (x.setWidth 32).signExtend 64)
  else .error .internal

/-- parse.c:3085-3099: the value of an integer; `bf` is the position and width of a bit-field. -/
def constRead (opt : Bool) (v : CVar) (ofs : Int) (sz : Nat) (uns : Bool) (bf : Option (Nat × Nat)) : M Word := do
  let (b, o) ← constData opt v ofs sz
  let raw ← readBuf b o sz
  let x ← signExtend sz uns raw
  match bf with
  | none => pure x
  | some (bofs, w) =>
    if w = 0 ∨ 64 < bofs + w then .error .ub
    else
      let y := x <<< (64 - w - bofs)
      pure (if uns then y >>> (64 - w) else y.sshiftRight (64 - w))

end Slimcc.GInit
