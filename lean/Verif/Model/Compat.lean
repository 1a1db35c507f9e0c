import Verif.Model.Types
/-!
Model of type compatibility, type.c:189-252, and of the choice made by `_Generic`,
parse.c:4109-4148.

A type object is a tree. Objects whose identity matters (`void`, `_Bool`, structures, unions,
incomplete enumerations) carry the identity of their defining object; a type whose `origin` field
is set (qualified versions, completed enumerations, later declarations of a structure tag) is
`origin q o`, with `q` its own qualifier flags. Pointer equality of objects (`t1 == t2`) is the
parameter `same`.
-/
set_option autoImplicit false
namespace Slimcc.Ty

/-- slimcc.h:549-552. -/
structure Quals where
  atomic : Bool
  const : Bool
  volatile : Bool
  restrict : Bool
  deriving DecidableEq, Repr

/-- The floating kinds. -/
inductive FKind where
  | float | double | ldouble
  deriving DecidableEq, Repr

mutual
/-- slimcc.h:544-586 `Type`, the fields compatibility looks at. -/
inductive CT where
  /-- integer kinds except `_Bool` (the static objects of type.c:6-18, never qualified themselves) -/
  | int (k : IKind) (uns : Bool)
  | flo (k : FKind)
  /-- `void`, `_Bool`, struct, union, incomplete enum: kind number and identity -/
  | nominal (kind id : Nat)
  | ptr (q : Quals) (base : CT)
  | func (ret : CT) (params : CTs) (variadic oldstyle : Bool)
  | array (q : Quals) (base : CT) (len : Int)
  | vla (q : Quals) (base : CT)
  | origin (q : Quals) (o : CT)
/-- Parameter types. -/
inductive CTs where
  | nil
  | cons (t : CT) (ts : CTs)
end

/-- The qualifier flags of a type object. -/
def CT.quals : CT → Quals
  | .ptr q _ | .array q _ _ | .vla q _ | .origin q _ => q
  | _ => ⟨false, false, false, false⟩

mutual
/-- type.c:201-252 `is_compatible`. -/
def isCompatible (same : CT → CT → Bool) (t1 t2 : CT) : Bool :=
  if same t1 t2 then true
  else
    match t1, t2 with
    | .origin _ o, t2 => isCompatible same o t2
    | t1, .origin _ o => isCompatible same t1 o
    | .vla _ b1, .vla _ b2 | .vla _ b1, .array _ b2 _ | .array _ b1 _, .vla _ b2 => isCompatible2 same b1 b2
    | .int k1 u1, .int k2 u2 => k1 == k2 && u1 == u2
    | .flo k1, .flo k2 => k1 == k2
    | .ptr _ b1, .ptr _ b2 => isCompatible2 same b1 b2
    | .func r1 p1 v1 _, .func r2 p2 v2 _ =>
      if !isCompatible same r1 r2 then false
      else if v1 != v2 then false
      else isCompatibleParams same p1 p2
    | .array _ b1 n1, .array _ b2 n2 =>
      if !isCompatible2 same b1 b2 then false
      else decide (n1 < 0) || decide (n2 < 0) || n1 == n2
    | _, _ => false
  termination_by (sizeOf t1 + sizeOf t2, 0)

/-- type.c:189-199 `is_compatible2`. -/
def isCompatible2 (same : CT → CT → Bool) (t1 t2 : CT) : Bool :=
  if t1.quals.atomic != t2.quals.atomic then false
  else if t1.quals.const != t2.quals.const then false
  else if t1.quals.volatile != t2.quals.volatile then false
  else if t1.quals.restrict != t2.quals.restrict then false
  else isCompatible same t1 t2
  termination_by (sizeOf t1 + sizeOf t2, 1)

/-- type.c:238-243: the loop over the parameters. -/
def isCompatibleParams (same : CT → CT → Bool) (p1 p2 : CTs) : Bool :=
  match p1, p2 with
  | .cons t1 p1, .cons t2 p2 =>
    if !isCompatible same t1 t2 then false else isCompatibleParams same p1 p2
  | .nil, .nil => true
  | _, _ => false
  termination_by (sizeOf p1 + sizeOf p2, 0)
end

/-- parse.c:4127-4142: the loop of `generic_selection` over the associations (`none` is
`default`), with the result so far; `α` stands for the expressions. -/
def genericLoop {α : Type} (same : CT → CT → Bool) (t1 : CT) : List (Option CT × α) → Option α → Option α
  | [], ret => ret
  | (none, e) :: rest, ret => genericLoop same t1 rest (if ret.isNone then some e else ret)
  | (some t2, e) :: rest, ret => genericLoop same t1 rest (if isCompatible2 same t1 t2 then some e else ret)

/-- parse.c:4125-4147: the selected expression, or the error. -/
def genericSelect {α : Type} (same : CT → CT → Bool) (t1 : CT) (assocs : List (Option CT × α)) : Option α :=
  genericLoop same t1 assocs none

end Slimcc.Ty
