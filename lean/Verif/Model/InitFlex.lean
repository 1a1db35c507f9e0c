import Verif.Model.InitList

/-
Arrays of unknown length: parse.c:1770-1791 (`count_array_init_elements`) and what
`string_initializer` (1629-1630) and `initializer2` (1838-1850) do with a node of kind
`INIT_FLEXIBLE`.  The simplifications are those of Model/InitList.lean.  Flexible
array members are not modelled.
-/
set_option autoImplicit false

namespace Slimcc.InitList

section
variable (fits : Src → Ty → Bool)

/-- The loop of `count_array_init_elements`, parse.c:1775-1788, with `comma_list`
(561-576); `δ` is the node that stands for every element. -/
def count : Nat → Ty → Int → Int → List Tok → Store → M Int
  | 0, _, _, _, _, _ => .error .fuel
  | f + 1, b, i, mx, t, δ =>
    match t with
    | .rb :: _ => .ok mx
    | _ => do
      let t ← sepBy (i != 0) t
      match i != 0, t with
      | true, .rb :: _ => .ok mx
      | _, .idx v :: r => do
        let (t, δ) ← desig fits f b [] r δ
        let i := truncInt v
        if 2 ^ 31 ≤ i + 1 then .error .ub else count f b (i + 1) (max mx (i + 1)) t δ
      | _, t => do
        let (t, δ) ← init2 fits f b [] t δ
        if 2 ^ 31 ≤ i + 1 then .error .ub else count f b (i + 1) (max mx (i + 1)) t δ

/-- `initializer2` on an array of unknown length, parse.c:1822-1850: the length, the
rest of the tokens and the nodes. -/
def flex (f : Nat) (b : Ty) (t : List Tok) : M (Nat × List Tok × Store) :=
  match strForm b t with
  | some (sz, w, us, r) => do
    let (t, σ) ← strInit [] us.length sz w us r (fresh (.arr us.length b))
    .ok (us.length, t, σ)
  | none =>
    match t with
    | .lb :: r => do
      let n ← count fits f b 0 0 r (fresh b)
      let (t, σ) ← braced fits f (.arr n.toNat b) [] r (fresh (.arr n.toNat b))
      .ok (n.toNat, t, σ)
    | _ => do
      let n ← count fits f b 0 0 t (fresh b)
      let (t, σ) ← list fits f (.arr n.toNat b) [] t (fresh (.arr n.toNat b)) 0
      .ok (n.toNat, t, σ)

/-- `lvar_initializer`, parse.c:2008-2029, for an array of unknown length: the
length, the assignments and the rest of the tokens. -/
def lvarFlex (f : Nat) (b : Ty) (t : List Tok) : M (Nat × List (Path × Val) × List Tok) := do
  let (n, t, σ) ← flex fits f b t
  let a ← create (.arr n b) [] σ
  .ok (n, a, t)
end

end Slimcc.InitList
