/-
Initializer lists: parse.c:52-78 (`Initializer`), 424-460 (`new_initializer`),
561-576 (`comma_list`), 1617-1675, 1702-1765, 1793-1908 (`initializer2` and what it
calls) and 1958-1996 (`create_lvar_init`).

Simplifications, for the whole file:
* An expression is one token, `ex`, and so is a string literal, with or without
  parentheses.  `assign` (3270) takes that token.  An expression that begins with
  a string literal and goes on after it is not modelled.
* `.name` and `[n]` are one token each; `[n]` carries the value of its constant
  expression.  Ranges, `[a ... b]`, are not modelled.
* A number that is kept as a token (`INIT_TOK`, 1899-1904) is an expression like
  any other.
* Arrays of unknown length are in Model/InitFlex.lean, flexible array members are
  not modelled.
* The tree of `Initializer`s is a store that is indexed by the path from the
  root, which is what `mem_arr` amounts to; a node has as many children as its
  type has elements or members.
-/
set_option autoImplicit false

namespace Slimcc.InitList

mutual
/-- Types, as far as they matter: `leaf` is what is not an array, a structure or a
union, with its size if it is an integer type. -/
inductive Ty where
  | leaf (int : Option Nat)
  | arr (n : Nat) (base : Ty)
  | agg (isUnion : Bool) (ms : Mems)
/-- Members, slimcc.h:589-601; an anonymous one has no name. -/
inductive Mems where
  | nil
  | cons (name : Option String) (ty : Ty) (rest : Mems)
end

def Mems.len : Mems → Nat
  | .nil => 0
  | .cons _ _ rest => rest.len + 1

def Mems.get : Mems → Nat → Option Ty
  | .nil, _ => none
  | .cons _ t _, 0 => some t
  | .cons _ _ rest, i + 1 => rest.get i

/-- `mem_cnt`, parse.c:434 and 448. -/
def Ty.cnt : Ty → Nat
  | .leaf _ => 0
  | .arr n _ => n
  | .agg _ ms => ms.len

/-- The type of `mem_arr[i]`, parse.c:436-458. -/
def Ty.child : Ty → Nat → Option Ty
  | .leaf _, _ => none
  | .arr n b, i => if i < n then some b else none
  | .agg _ ms, i => ms.get i

abbrev Path := List Nat

/-- The type of the node at a path. -/
def Ty.at_ : Ty → Path → Option Ty
  | t, [] => some t
  | t, i :: p => match t.child i with
    | some c => c.at_ p
    | none => none

/-- What is written as an initializer: an expression or a string literal, with the
size of its elements and its elements, the terminator included. -/
inductive Src where
  | ex (id : Nat)
  | str (w : Nat) (us : List Nat)
  deriving DecidableEq, Repr

/-- What is stored: an expression, or the number that a string's element is
(`new_num`, parse.c:1639). -/
inductive Val where
  | of (s : Src)
  | unit (u : Nat)
  deriving DecidableEq, Repr

inductive Tok where
  | lb | rb | comma | eq
  | idx (v : Int)
  | dot (name : String)
  | src (s : Src)
  deriving DecidableEq, Repr

/-- `kind`, parse.c:61-67. -/
inductive Kind where
  | none | list | expr
  deriving DecidableEq, Repr

/-- The union at the end of `Initializer`, parse.c:71-75. -/
inductive Pay where
  | null
  | mem (i : Nat)
  | expr (v : Val)
  deriving DecidableEq, Repr

structure Cell where
  kind : Kind
  pay : Pay
  deriving DecidableEq, Repr

abbrev Store := Path → Cell

def Store.set (σ : Store) (p : Path) (c : Cell) : Store := fun q => if q = p then c else σ q
def Store.kind (σ : Store) (p : Path) (k : Kind) : Store := σ.set p { σ p with kind := k }
def Store.pay (σ : Store) (p : Path) (y : Pay) : Store := σ.set p { σ p with pay := y }

/-- The kind of a new node of a type, parse.c:432, 446 and `calloc`. -/
def Ty.kind : Ty → Kind
  | .leaf _ => .none
  | .arr .. | .agg .. => .list

/-- `new_initializer`, parse.c:424-460. -/
def fresh (root : Ty) : Store := fun p =>
  match root.at_ p with
  | some t => ⟨t.kind, .null⟩
  | none => ⟨.none, .null⟩

inductive Fail where
  /-- `error_tok` -/
  | diag
  /-- undefined behaviour of the compiler -/
  | ub
  /-- `internal_error` -/
  | internal
  /-- the model has run out of fuel -/
  | fuel
  deriving DecidableEq, Repr

abbrev M := Except Fail
abbrev R := M (List Tok × Store)

/-- `skip`, tokenize.c. -/
def skip (t : Tok) : List Tok → M (List Tok)
  | x :: r => if x = t then .ok r else .error .diag
  | [] => .error .diag

/-- The comma before an initializer, parse.c:566-567 and 1808. -/
def sepBy (sep : Bool) (t : List Tok) : M (List Tok) := if sep then skip .comma t else .ok t

/-- `assign`, as far as it matters. -/
def assign : List Tok → M (Src × List Tok)
  | .src s :: r => .ok (s, r)
  | _ => .error .diag

def headIs (t : Tok) : List Tok → Bool
  | x :: _ => x = t
  | [] => false

/-- `equal(tok, "[") || equal(tok, ".")`. -/
def isDesig : List Tok → Bool
  | .idx _ :: _ | .dot _ :: _ => true
  | _ => false

mutual
/-- `get_struct_member` on a member's type, parse.c:3909-3911. -/
def Ty.has : Ty → String → Bool
  | .agg _ ms, nm => (ms.find nm).isSome
  | _, _ => false
/-- `get_struct_member`, parse.c:3906-3920: the index of the member, and whether it
has a name itself. -/
def Mems.find : Mems → String → Option (Nat × Bool)
  | .nil, _ => none
  | .cons name ty rest, nm =>
    match name with
    | none => if ty.has nm then some (0, false) else (rest.find nm).map (fun r => (r.1 + 1, r.2))
    | some s => if s = nm then some (0, true) else (rest.find nm).map (fun r => (r.1 + 1, r.2))
end

/-- The string of `initializer2`, parse.c:1822-1836, and what follows it. -/
def strForm : Ty → List Tok → Option (Nat × Nat × List Nat × List Tok)
  | .leaf (some sz), .lb :: .src (.str w us) :: .rb :: r => some (sz, w, us, r)
  | .leaf (some sz), .src (.str w us) :: r => some (sz, w, us, r)
  | _, _ => none

/-- The loops of `string_initializer`, parse.c:1632-1658, from element `i` on. -/
def putUnits (p : Path) : Nat → Nat → List Nat → Store → Store
  | 0, _, _, σ => σ
  | _, _, [], σ => σ
  | n + 1, i, u :: us, σ => putUnits p n (i + 1) us (σ.set (p ++ [i]) ⟨.expr, .expr (.unit u)⟩)

/-- `string_initializer`, parse.c:1628-1662.  A string with elements of another
size, which is not diagnosed, is read as something else, which is not modelled. -/
def strInit (p : Path) (n sz w : Nat) (us : List Nat) (r : List Tok) (σ : Store) : R :=
  if sz = w then .ok (r, putUnits p n 0 us σ) else .error .ub

/-- `int *begin = const_expr(...)`, parse.c:1703. -/
def truncInt (v : Int) : Int := v.bmod (2 ^ 32)

/-- `skip_excess_element`, parse.c:1617-1625. -/
def skipExcess : Nat → List Tok → M (List Tok)
  | 0, _ => .error .fuel
  | f + 1, .lb :: r => do
    let t ← skipExcess f r
    skip .rb t
  | _ + 1, t => do
    let (_, r) ← assign t
    .ok r

section
variable (fits : Src → Ty → Bool)

mutual
/-- `initializer2`, parse.c:1821-1908.  `fits` is `is_compatible` on the type of the
expression. -/
def init2 : Nat → Ty → Path → List Tok → Store → R
  | 0, _, _, _, _ => .error .fuel
  | f + 1, .arr n b, p, t, σ =>
    match strForm b t with
    | some (sz, w, us, r) => strInit p n sz w us r σ
    | none =>
      match t with
      | .lb :: r => braced f (.arr n b) p r σ
      | _ => list f (.arr n b) p t σ 0
  | f + 1, .agg false ms, p, t, σ =>
    match t with
    | .lb :: r => braced f (.agg false ms) p r σ
    | _ => do
      let (e, r) ← assign t
      if fits e (.agg false ms) then .ok (r, σ.set p ⟨.expr, .expr (.of e)⟩)
      else list f (.agg false ms) p t σ 0
  | f + 1, .agg true ms, p, t, σ =>
    let first : Pay := if ms.len = 0 then .null else .mem 0
    match t with
    | .lb :: r => braced f (.agg true ms) p r (σ.pay p first)
    | _ => do
      let (e, r) ← assign t
      if fits e (.agg true ms) then .ok (r, σ.set p ⟨.expr, .expr (.of e)⟩)
      else
        match ms.get 0 with
        | some c => init2 f c (p ++ [0]) t (σ.pay p first)
        | none => .error .ub
  | f + 1, .leaf k, p, t, σ =>
    match t with
    | .lb :: r => do
      let (t, σ) ← init2 f (.leaf k) p r σ
      let t ← skip .rb t
      .ok (t, σ)
    | _ => do
      let (e, r) ← assign t
      .ok (r, σ.set p ⟨.expr, .expr (.of e)⟩)

/-- `list_initializer`, parse.c:1806-1816. -/
def list : Nat → Ty → Path → List Tok → Store → Nat → R
  | 0, _, _, _, _, _ => .error .fuel
  | f + 1, ty, p, t, σ, i =>
    match ty.child i with
    | none => .ok (t, σ)
    | some c =>
      if headIs .rb t then .ok (t, σ)
      else do
        let t2 ← sepBy (i != 0) t
        if headIs .rb t2 || isDesig t2 then .ok (t, σ)
        else do
          let (t, σ) ← init2 f c (p ++ [i]) t2 σ
          list f ty p t σ (i + 1)

/-- `braced_initializer`, parse.c:1793-1804. -/
def braced : Nat → Ty → Path → List Tok → Store → R
  | 0, _, _, _, _ => .error .fuel
  | f + 1, ty, p, start, σ => do
    let (t, σ) ← list f ty p start σ 0
    bracedLoop f ty p t σ (t.length != start.length)

/-- The loop of `braced_initializer`, parse.c:1797-1803, with `comma_list`
(561-576); `sep` is `tok != start`. -/
def bracedLoop : Nat → Ty → Path → List Tok → Store → Bool → R
  | 0, _, _, _, _, _ => .error .fuel
  | f + 1, ty, p, t, σ, sep =>
    match t with
    | .rb :: r => .ok (r, σ)
    | _ => do
      let t ← sepBy sep t
      match sep, t with
      | true, .rb :: r => .ok (r, σ)
      | _, t =>
        if isDesig t then do
          let (t, σ) ← desig f ty p t σ
          bracedLoop f ty p t σ true
        else do
          let t ← skipExcess f t
          bracedLoop f ty p t σ true

/-- `designation`, parse.c:1733-1765, with `array_designator` (1702-1718) and
`struct_designator` (1721-1731). -/
def desig : Nat → Ty → Path → List Tok → Store → R
  | 0, _, _, _, _ => .error .fuel
  | f + 1, ty, p, .idx v :: r, σ =>
    match ty with
    | .arr n b => do
      let σ := σ.kind p .list
      let i := truncInt v
      if (n : Int) ≤ i then .error .diag
      else if i < 0 then .error .ub
      else do
        let (t, σ) ← desig f b (p ++ [i.toNat]) r σ
        list f (.arr n b) p t σ (i.toNat + 1)
    | _ => .error .diag
  | f + 1, ty, p, .dot nm :: r, σ =>
    match ty with
    | .agg u ms =>
      match ms.find nm with
      | none => .error .diag
      | some (i, named) =>
        match ms.get i with
        | none => .error .internal
        | some c => do
          let σ := σ.kind p .list
          let t := if named then r else .dot nm :: r
          if u then desig f c (p ++ [i]) t (σ.pay p (.mem i))
          else do
            let (t, σ) ← desig f c (p ++ [i]) t σ
            list f (.agg u ms) p t σ (i + 1)
    | _ => .error .diag
  | f + 1, ty, p, t, σ => do
    let t ← skip .eq t
    init2 f ty p t σ
end

/-- The loop of parse.c:1964-1967: the first `n` elements. -/
def createArr (g : Nat → M (List (Path × Val))) : Nat → M (List (Path × Val))
  | 0 => .ok []
  | n + 1 => do
    let a ← createArr g n
    let c ← g n
    .ok (a ++ c)

mutual
/-- `create_lvar_init`, parse.c:1958-1996: the assignments, in order. -/
def create : Ty → Path → Store → M (List (Path × Val))
  | ty, p, σ =>
    match (σ p).kind with
    | .none => .ok []
    | .list =>
      match ty with
      | .arr n b => createArr (fun i => create b (p ++ [i]) σ) n
      | .agg u ms => createMems u ms p σ 0
      | .leaf _ => .error .internal
    | .expr =>
      match ty with
      | .arr .. => .error .diag
      | _ =>
        match (σ p).pay with
        | .expr v => .ok [(p, v)]
        | _ => .error .ub
/-- The loop of parse.c:1971-1977, from member `i` on. -/
def createMems (u : Bool) : Mems → Path → Store → Nat → M (List (Path × Val))
  | .nil, _, _, _ => .ok []
  | .cons _ t rest, p, σ, i => do
    let a ← if u && (σ p).pay != .mem i then pure [] else create t (p ++ [i]) σ
    let c ← createMems u rest p σ (i + 1)
    .ok (a ++ c)
end

/-- `lvar_initializer`, parse.c:2008-2029, with `initializer` (1910-1912): the
assignments that follow the zeroing of the variable, and the rest of the tokens. -/
def lvarInit (f : Nat) (ty : Ty) (t : List Tok) : M (List (Path × Val) × List Tok) := do
  let (t, σ) ← init2 fits f ty [] t (fresh ty)
  let a ← create ty [] σ
  .ok (a, t)
end

end Slimcc.InitList
