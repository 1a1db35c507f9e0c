/-!
Access to members of structures and unions: parse.c:400-408 and 3905-3954, type.c:91-108.

Simplifications, for the whole file:
* A type is its qualifiers and either a structure or union with members, or anything else, named by a
  number. `ty->origin` is the type without its qualifiers (types whose qualifiers come in several
  steps, through `typedef`, are not distinguished).
* Names are lists of bytes; a member's bit-field attributes are left out.
* The result of `struct_ref` is the list of members its chain of nodes goes through and the type of the
  last node.
-/
set_option autoImplicit false
namespace Slimcc.Mem

/-- slimcc.h: `is_atomic`, `is_const`, `is_volatile`, `is_restrict`. -/
structure Quals where
  atomic : Bool := false
  const : Bool := false
  volatile : Bool := false
  restrict : Bool := false
  deriving DecidableEq, Repr

mutual
inductive MTy where
  | other (q : Quals) (id : Nat)
  | agg (q : Quals) (isUnion : Bool) (ms : Mems)
/-- `ty->members`: name (anonymous if `none`), offset, type. -/
inductive Mems where
  | nil
  | cons (name : Option (List Nat)) (ofs : Nat) (ty : MTy) (rest : Mems)
end

structure Member where
  name : Option (List Nat)
  ofs : Nat
  ty : MTy

def MTy.quals : MTy → Quals
  | .other q _ => q
  | .agg q _ _ => q

/-- The same type, differently qualified. -/
def MTy.withQuals (q : Quals) : MTy → MTy
  | .other _ i => .other q i
  | .agg _ u ms => .agg q u ms

mutual
/-- parse.c:3906-3919 `get_struct_member`: whether the members have the name, directly or in an
anonymous member. -/
def Mems.has (n : List Nat) : Mems → Bool
  | .nil => false
  | .cons nm _ ty rest => (nm.isNone && ty.has n) || decide (nm = some n) || rest.has n
/-- parse.c:3909-3910: a structure or union with such a member. -/
def MTy.has (n : List Nat) : MTy → Bool
  | .other _ _ => false
  | .agg _ _ ms => ms.has n
end

/-- parse.c:3906-3919 `get_struct_member`. -/
def getMember (n : List Nat) : Mems → Option Member
  | .nil => none
  | .cons nm ofs ty rest =>
    if (nm.isNone && ty.has n) = true then some ⟨nm, ofs, ty⟩
    else if nm = some n then some ⟨nm, ofs, ty⟩
    else getMember n rest

/-- parse.c:400-408 `apply_cv_qualifier`, with type.c:91-108 `new_qualified_type`, which starts from the
type without any qualifier. -/
def applyCV (ty : MTy) (q2 : Quals) : MTy :=
  if ((!ty.quals.const) && q2.const) || ((!ty.quals.volatile) && q2.volatile) then
    ty.withQuals { const := ty.quals.const || q2.const, volatile := ty.quals.volatile || q2.volatile }
  else ty

theorem getMember_size (n : List Nat) (m : Member) : ∀ (ms : Mems), getMember n ms = some m → sizeOf m.ty < sizeOf ms
  | .nil, h => by simp [getMember] at h
  | .cons nm ofs ty rest, h => by
    rw [getMember] at h
    by_cases h1 : (nm.isNone && ty.has n) = true
    · rw [if_pos h1] at h; cases h; simp; omega
    · rw [if_neg h1] at h
      by_cases h2 : nm = some n
      · rw [if_pos h2] at h; cases h; simp; omega
      · rw [if_neg h2] at h
        have := getMember_size n m rest h
        simp; omega

/-- parse.c:3934-3954 `struct_ref` on a node of type `ty`: `none` is an error. -/
def structRef (n : List Nat) (ty : MTy) : Option (List Member × MTy) :=
  match ty with
  | .other _ _ => none
  | .agg q _ ms =>
    match h : getMember n ms with
    | none => none
    | some m =>
      let t := applyCV m.ty q
      match m.name with
      | some _ => some ([m], t)
      | none =>
        match structRef n m.ty with
        | some (l, t') => some (m :: l, t')
        | none => none
termination_by sizeOf ty
decreasing_by
  have := getMember_size n m ms h
  simp; omega

end Slimcc.Mem
