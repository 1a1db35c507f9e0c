import Verif.Model.InitList
/-!
What an initializer list means: C23 6.7.11 (C11 6.7.9), paragraphs 14 to 23.  Of
the model only the types, the paths and the source tokens are used.

The list is first turned into a list of events, `set p v` (the subobject at `p` is
given the value `v`) and `brace p` (the subobject at `p` is given a list in braces).
What the object then holds is defined on the events.
-/
set_option autoImplicit false
namespace Slimcc.InitSpec
open Slimcc.InitList (Ty Mems Path Src Val Tok)

/-- A designator. -/
inductive Desig where
  | idx (v : Int)
  | dot (name : String)

mutual
/-- An initializer: an expression, or a list in braces, perhaps with a comma after
it. -/
inductive Ini where
  | e (s : Src)
  | br (its : Items) (trail : Bool)
/-- The list: each initializer with its designators. -/
inductive Items where
  | nil
  | cons (ds : List Desig) (i : Ini) (rest : Items)
end

/-! ### How it is written -/

def Desig.toks : Desig → Tok
  | .idx v => .idx v
  | .dot nm => .dot nm

/-- A designation: the designators and `=`. -/
def desigToks (ds : List Desig) : List Tok :=
  if ds.isEmpty then [] else ds.map Desig.toks ++ [.eq]

mutual
def Ini.toks : Ini → List Tok
  | .e s => [.src s]
  | .br .nil _ => [.lb, .rb]
  | .br (.cons ds i rest) trail =>
    .lb :: (desigToks ds ++ i.toks ++ rest.toks ++ (if trail then [.comma, .rb] else [.rb]))
/-- What follows the first one. -/
def Items.toks : Items → List Tok
  | .nil => []
  | .cons ds i rest => .comma :: (desigToks ds ++ i.toks ++ rest.toks)
end

/-! ### Subobjects -/

mutual
/-- The member a name stands for; the members of an anonymous structure or union
are members of the structure or union that contains it. -/
def Ty.named : Ty → String → Option Path
  | .agg _ ms, nm => memNamed ms nm
  | _, _ => none
def memNamed : Mems → String → Option Path
  | .nil, _ => none
  | .cons name ty rest, nm =>
    let here : Option Path :=
      match name with
      | some s => if s = nm then some [] else none
      | none => Ty.named ty nm
    match here with
    | some p => some (0 :: p)
    | none =>
      match memNamed rest nm with
      | some (i :: p) => some ((i + 1) :: p)
      | _ => none
end

/-- The subobject a list of designators describes. -/
def resolve : Ty → List Desig → Option Path
  | _, [] => some []
  | .arr n b, .idx v :: ds =>
    if 0 ≤ v ∧ v < n then (resolve b ds).map (v.toNat :: ·) else none
  | .agg u ms, .dot nm :: ds => do
    let p ← memNamed ms nm
    let t ← (Ty.agg u ms).at_ p
    let q ← resolve t ds
    some (p ++ q)
  | _, _ => none

/-- Whether the type is a union. -/
def isUnion : Ty → Bool
  | .agg u _ => u
  | _ => false

/-- The subobject after the one at a path: the next element or member, and after
the last one what comes after the array or structure it is in.  Nothing but one
member of a union is initialized, so that what comes after it is what comes after
the union. -/
def next : Ty → Path → Option Path
  | _, [] => none
  | t, i :: p =>
    match t.child i with
    | none => none
    | some c =>
      match next c p with
      | some q => some (i :: q)
      | none => if isUnion t = false ∧ i + 1 < t.cnt then some [i + 1] else none

/-- The first subobject. -/
def first (t : Ty) : Option Path := if 0 < t.cnt then some [0] else none

section
variable (fits : Src → Ty → Bool)

/-- Whether an object of the type can be initialized by the expression as a whole:
scalars by anything, structures and unions by an expression of their type, arrays
of integers by a string of elements of that size. -/
def takes : Ty → Src → Bool
  | .leaf _, _ => true
  | .agg u ms, s => fits s (.agg u ms)
  | .arr _ (.leaf (some sz)), .str w _ => sz = w
  | .arr _ _, _ => false

/-- A string for an array of integers of another size, which is an error. -/
def wrongString : Ty → Src → Bool
  | .leaf (some sz), .str w _ => sz ≠ w
  | _, _ => false

mutual
/-- Which subobject an expression without braces initializes: the object itself if
it can, otherwise the first subobject of its first element or member that can. -/
def lead : Ty → Src → Option Path
  | .leaf _, _ => some []
  | .arr n b, s =>
    if takes fits (.arr n b) s then some []
    else if n = 0 ∨ wrongString b s then none else (lead b s).map (0 :: ·)
  | .agg u ms, s => if takes fits (.agg u ms) s then some [] else leadMems ms s
def leadMems : Mems → Src → Option Path
  | .nil, _ => none
  | .cons _ t _, s => (lead t s).map (0 :: ·)
end

inductive Ev where
  | set (p : Path) (v : Val)
  | brace (p : Path)
  deriving DecidableEq, Repr

def Ev.path : Ev → Path
  | .set p _ => p
  | .brace p => p

def Ev.under (q : Path) : Ev → Ev
  | .set p v => .set (q ++ p) v
  | .brace p => .brace (q ++ p)

/-- The elements of a string, from element `i` on, as far as there is room. -/
def units (i : Nat) : Nat → List Nat → List Ev
  | 0, _ => []
  | _, [] => []
  | n + 1, u :: us => .set [i] (.unit u) :: units (i + 1) n us

/-- An object of the type is initialized by the expression as a whole. -/
def give : Ty → Src → List Ev
  | .arr n _, .str _ us => .brace [] :: units 0 n us
  | _, s => [.set [] (.of s)]

/-- The expression that is in the braces of a scalar's initializer, and nothing
else. -/
def scalar : Items → Bool → Option Src
  | .cons [] (.e s) .nil, false => some s
  | .cons [] (.br its tr) .nil, false => scalar its tr
  | _, _ => none

/-- An object is initialized by a list in braces; `rest` is what the list amounts to
if it is one of initializers for its subobjects.  A scalar's braces may have only
its initializer in them, and so may the braces around a string. -/
def objWith (rest : Option (List Ev)) : Ty → Items → Bool → Option (List Ev)
  | .leaf _, its, tr => (scalar its tr).map (fun s => [.set [] (.of s)])
  | .arr n (.leaf (some sz)), .cons [] (.e (.str w us)) .nil, tr =>
    if sz = w ∧ tr = false then some (give (.arr n (.leaf (some sz))) (.str w us)) else none
  | _, _, _ => rest.map (.brace [] :: ·)

mutual
/-- The rest of a list in braces for an object of the type, from the subobject
`cur` on. -/
def items (t : Ty) (cur : Option Path) : Items → Option (List Ev)
  | .nil => some []
  | .cons ds i rest => do
    let p ← if ds.isEmpty then cur else resolve t ds
    let (q, evs) ← place t p i
    let more ← items t (next t q) rest
    some (evs ++ more)
/-- One initializer for the subobject at `p`: the subobject it initializes. -/
def place (t : Ty) (p : Path) : Ini → Option (Path × List Ev)
  | .e s => do
    let c ← t.at_ p
    let q ← lead fits c s
    let d ← c.at_ q
    some (p ++ q, (give d s).map (Ev.under (p ++ q)))
  | .br its tr => do
    let c ← t.at_ p
    let evs ← objWith (items c (first c) its) c its tr
    some (p, evs.map (Ev.under p))
end

/-- An object is initialized by a list in braces. -/
def obj (t : Ty) (its : Items) (tr : Bool) : Option (List Ev) :=
  objWith (items fits t (first t) its) t its tr

/-- What the initializer of an object of the type amounts to. -/
def events (t : Ty) : Ini → Option (List Ev)
  | .e s => if takes fits t s then some (give t s) else none
  | .br its tr => obj fits t its tr
end

/-- One more than the index of the element the event is for. -/
def reach (ev : Ev) : Nat :=
  match ev.path with
  | [] => 0
  | i :: _ => i + 1

/-- The length of an array that gets it from its initializer: it is determined by
the largest indexed element with an initializer (6.7.11 paragraph 25). -/
def extent : List Ev → Nat
  | [] => 0
  | ev :: evs => max (reach ev) (extent evs)

/-! ### What the object holds -/

/-- What a subobject holds: nothing but zero bits, or part of a value, the part that
is at some path in it. -/
abbrev Holds := Path → Option (Val × Path)

/-- The two paths lead into different members of a union. -/
def Apart (t : Ty) (p q : Path) : Prop :=
  ∃ (u : Path) (i j : Nat) (p' q' : Path) (c : Ty), p = u ++ i :: p' ∧ q = u ++ j :: q' ∧ i ≠ j ∧
    t.at_ u = some c ∧ isUnion c = true

open Classical in
/-- An initializer overrides what the subobject was given before, and what other
members of the same union were given. -/
noncomputable def after (t : Ty) (h : Holds) : Ev → Holds
  | .set p v => fun l =>
    if p <+: l then some (v, l.drop p.length)
    else if Apart t p l then none else h l
  | .brace p => fun l =>
    if p <+: l then none
    else if Apart t p l then none else h l

/-- What is held at the end, where everything is zero at first. -/
noncomputable def holds (t : Ty) (evs : List Ev) : Holds := evs.foldl (after t) (fun _ => none)

/-- Neither path leads to the other: the assignments are to subobjects that have
no part in common. -/
def Off (a b : Path × Val) : Prop := ¬ a.1 <+: b.1 ∧ ¬ b.1 <+: a.1

/-- What is held after assignments to subobjects. -/
def assigned (as : List (Path × Val)) : Holds :=
  as.foldl (fun h a l => if a.1.isPrefixOf l then some (a.2, l.drop a.1.length) else h l)
    (fun _ => none)

/-- Every array in the type has a length that is at most 2 to the power of 31. -/
def Small (t : Ty) : Prop := ∀ (p : Path) (n : Nat) (b : Ty), t.at_ p = some (.arr n b) → n ≤ 2 ^ 31

/-! ### Lists that give no subobject two initializers that overlap in part -/

/-- The event comes after `past`: no subobject of which it initializes a part has
been given a value; if it is a list in braces, no part of the subobject has; and a
member of a union is not taken up again after another one. -/
structure Once (t : Ty) (past : List Ev) (ev : Ev) : Prop where
  above : ∀ (q : Path) (v : Val), Ev.set q v ∈ past → q <+: ev.path → ∃ w, ev = .set q w
  below : ∀ (p q : Path) (v : Val), ev = .brace p → Ev.set q v ∈ past → ¬ p <+: q
  member : ∀ (a b : List Ev) (e : Ev) (u : Path) (i j : Nat) (c : Ty), past = a ++ e :: b →
    t.at_ u = some c → isUnion c = true → u ++ [i] <+: ev.path → u ++ [j] <+: e.path → i ≠ j →
    ∀ (q : Path) (v : Val), Ev.set q v ∈ a → ¬ u ++ [i] <+: q

/-- Every event does. -/
def Clean (t : Ty) (evs : List Ev) : Prop :=
  ∀ (a b : List Ev) (ev : Ev), evs = a ++ ev :: b → Once t a ev

end Slimcc.InitSpec
