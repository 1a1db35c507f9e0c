/-!
Variable length arrays: parse.c:511-521, 1412-1435, 1518-1538, codegen.c:1316-1363, 4107-4110.

Simplifications, for the whole file:
* A history is the sequence in which an execution of a function passes declarations of variable length
  arrays, registers deferred statements and cleanup functions, and leaves scopes (by falling out of them or
  jumping); the code in between leaves the stack pointer alone, and so do deferred statements.
* `node->defr_end`, always a later part of the chain that starts with `node->defr_start`, is given by its length.
* The type of the number of elements is that of the expression after promotion; the code of the multiplication
  is that of C30.
-/
set_option autoImplicit false
namespace Slimcc.Vla

abbrev Word := BitVec 64

/-! ### Size -/

/-- A variable length array type: the number of elements, with its type, and the type of the elements; or a type
of known size. -/
inductive VTy where
  | fixed (size : Nat)
  | vla (n : Int) (bits : Nat) (signed : Bool) (base : VTy)

/-- Wrapping to a type of `bits` bits. -/
def wrap (bits : Nat) (signed : Bool) (x : Int) : Int :=
  if signed then x.bmod (2 ^ bits) else x.emod (2 ^ bits)

/-- parse.c:1412-1435 `compute_vla_size`: the value of the variable `ty->vla_size`, of type `size_t`. The size of the
elements is a constant of type `int` or another such variable. -/
def vlaSize : VTy → Int
  | .fixed s => s
  | .vla n bits signed base =>
    match base with
    | .fixed s => wrap 64 false (wrap bits signed (n * s))
    | .vla _ _ _ _ => wrap 64 false (wrap 64 false n * vlaSize base)

/-! ### Storage -/

inductive Kind where
  | vla
  | act (id : Nat)
  deriving DecidableEq, Repr

/-- slimcc.h `DeferStmt`. -/
structure Defr where
  kind : Kind
  vla : Option Nat
  deriving DecidableEq, Repr

abbrev Chain := List Defr

/-- parse.c:511-521 `new_defr`. -/
def newDefr (c : Chain) (k : Kind) : Chain := ⟨k, c.head?.bind Defr.vla⟩ :: c

/-- parse.c:1531-1532. -/
def newVla (c : Chain) (v : Nat) : Chain :=
  match newDefr c .vla with
  | d :: r => { d with vla := some v } :: r
  | [] => []

inductive Op where
  /-- `mov ofs(ptr), %rsp` of a variable -/
  | fromSlot (v : Nat)
  /-- `mov -vla_base_ofs(ptr), %rsp` -/
  | fromBase
  | run (id : Nat)
  deriving DecidableEq, Repr

/-- codegen.c:1328-1363 `gen_defr`; `dealloc` is `current_fn->dealloc_vla`, `e` the length of `defr_end`. -/
def genDefr (dealloc : Bool) (e : Nat) : Chain → List Op
  | [] => []
  | d :: c =>
    if c.length + 1 = e then []
    else match d.kind with
      | .act i => .run i :: genDefr dealloc e c
      | .vla =>
        if c.length ≠ e ∧ (c.head?.map Defr.kind) = some .vla then genDefr dealloc e c
        else if dealloc = false then genDefr dealloc e c
        else (match c.head?.bind Defr.vla with
          | some v => .fromSlot v
          | none => .fromBase) :: genDefr dealloc e c

/-- The stack pointer, the slots of the variables in the frame, and the slot of codegen.c:4108. -/
structure St where
  rsp : Word
  slot : Nat → Word
  base : Word

/-- codegen.c:1316-1326 `builtin_alloca`: the new stack pointer. -/
def allocSp (rsp sz : Word) (align : Nat) : Word := (rsp - sz) &&& (- BitVec.ofNat 64 (max align 16))

/-- Running what `gen_defr` printed: the new state, and the actions with the stack pointer they ran at. -/
def exec : List Op → St → St × List (Nat × Word)
  | [], s => (s, [])
  | .fromSlot v :: l, s => exec l { s with rsp := s.slot v }
  | .fromBase :: l, s => exec l { s with rsp := s.base }
  | .run i :: l, s => ((exec l s).1, (i, s.rsp) :: (exec l s).2)

inductive Ev where
  /-- the declaration of a variable length array of `sz` bytes -/
  | vla (v : Nat) (sz : Word) (align : Nat)
  /-- `defer`, or a variable with a cleanup function -/
  | defer (id : Nat)
  /-- to a point whose chain has length `k` -/
  | leave (k : Nat)
  /-- `__builtin_alloca`, whose block starts at the new stack pointer -/
  | alloca (sz : Word)
  deriving DecidableEq, Repr

/-- One event. -/
def step (dealloc : Bool) (x : Chain × St) : Ev → Chain × St × List (Nat × Word)
  | .vla v sz al =>
    let sp := allocSp x.2.rsp sz al
    (newVla x.1 v, { x.2 with rsp := sp, slot := fun u => if u = v then sp else x.2.slot u }, [])
  | .defer i => (newDefr x.1 (.act i), x.2, [])
  | .leave k =>
    let r := exec (genDefr dealloc k x.1) x.2
    (x.1.drop (x.1.length - k), r.1, r.2)
  | .alloca sz => (x.1, { x.2 with rsp := allocSp x.2.rsp sz 16 }, [])

/-- A history. -/
def runs (dealloc : Bool) (x : Chain × St) : List Ev → Chain × St
  | [] => x
  | e :: es => runs dealloc ((step dealloc x e).1, (step dealloc x e).2.1) es

end Slimcc.Vla
