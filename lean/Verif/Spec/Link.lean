/-!
Linkage and definitions of the objects and functions of a translation unit, written from C23 6.2.2
(linkages of identifiers), 6.2.7 (composite type) and 6.9.3 (external object definitions).
-/
set_option autoImplicit false
namespace Slimcc.Spec.Link

/-- Types of objects as far as their storage goes: any object type of known size, arrays of known and of
unknown length, and the structures and unions of the unit, which may be completed later. -/
inductive STy where
  | plain (size align : Nat)
  | arr (elem align n : Nat)
  | unsized (elem align : Nat)
  | tag (s : Nat)
  deriving DecidableEq, Repr

/-- An initializer: which one, and the number of elements it has for an array. -/
structure Init where
  id : Nat
  len : Nat
  deriving DecidableEq, Repr

/-- A declaration of an object at file scope. -/
structure ObjDecl where
  name : Nat
  static : Bool
  extern : Bool
  ty : STy
  init : Option Init
  deriving DecidableEq, Repr

/-- The inside of a function: objects without linkage (told apart by `k`), `extern` declarations of
objects, declarations of functions, uses of names, blocks. -/
inductive Body where
  | nil
  | var (x k : Nat) (r : Body)
  | ext (x : Nat) (ty : STy) (r : Body)
  | proto (x : Nat) (r : Body)
  | use (x : Nat) (r : Body)
  | block (b r : Body)
  deriving Repr

/-- A declaration of a function at file scope, with its body if it has one. `gnu`: it has the attribute
`gnu_inline`. -/
structure FnDecl where
  name : Nat
  static : Bool
  extern : Bool
  inline : Bool
  gnu : Bool
  body : Option Body
  deriving Repr

/-- What a translation unit consists of. -/
inductive Event where
  | obj (d : ObjDecl)
  | fn (d : FnDecl)
  | tag (s size align : Nat)
  deriving Repr

/-- The declarations of an object at file scope, in order. -/
def objDecls (u : List Event) (x : Nat) : List ObjDecl :=
  u.filterMap fun | .obj d => if d.name = x then some d else none | _ => none

def fnDecls (u : List Event) (x : Nat) : List FnDecl :=
  u.filterMap fun | .fn d => if d.name = x then some d else none | _ => none

/-- The names declared with linkage inside. -/
def Body.linked : Body → List Nat
  | .nil => []
  | .var _ _ r => r.linked
  | .ext x _ r => x :: r.linked
  | .proto x r => x :: r.linked
  | .use _ r => r.linked
  | .block b r => b.linked ++ r.linked

/-- The name is declared with linkage, anywhere. -/
def Declared (u : List Event) (x : Nat) : Prop :=
  objDecls u x ≠ [] ∨ fnDecls u x ≠ [] ∨ ∃ d b, Event.fn d ∈ u ∧ d.body = some b ∧ x ∈ b.linked

/-- A structure or union that is complete: its size and alignment. -/
def tagOf (u : List Event) (s : Nat) : Option (Nat × Nat) :=
  u.findSome? fun | .tag s' size align => if s' = s then some (size, align) else none | _ => none

/-- An initializer gives an array its length. -/
def ObjDecl.type (d : ObjDecl) : STy :=
  match d.ty, d.init with
  | .unsized e a, some i => .arr e a i.len
  | t, _ => t

/-- 6.2.7: arrays of unknown length are compatible with those of any length. -/
def STy.compat : STy → STy → Prop
  | .unsized e a, .arr e' a' _ => e = e' ∧ a = a'
  | .arr e a _, .unsized e' a' => e = e' ∧ a = a'
  | t, t' => t = t'

def STy.sized : STy → Bool
  | .unsized _ _ => false
  | _ => true

/-- 6.9.3: a declaration with an initializer is a definition, one without `extern` is tentative. -/
def ObjDecl.tentative (d : ObjDecl) : Prop := d.init = none ∧ d.extern = false

/-- The unit has a definition of the object. -/
def Defined (u : List Event) (x : Nat) : Prop := ∃ d ∈ objDecls u x, d.init ≠ none ∨ d.tentative

/-- 6.2.2: internal linkage. -/
def Internal (u : List Event) (x : Nat) : Prop := ∃ d ∈ objDecls u x, d.static = true
def InternalFn (u : List Event) (x : Nat) : Prop := ∃ d ∈ fnDecls u x, d.static = true

/-- The type of the object at the end of the unit: one declaration gives it; if any declaration gives the
length of an array, so does this. -/
def FinalTy (u : List Event) (x : Nat) (t : STy) : Prop :=
  (∃ d ∈ objDecls u x, d.type = t) ∧ (t.sized = false → ∀ d ∈ objDecls u x, d.type.sized = false)

/-- The storage it needs; 6.9.3: an array of a length that is never given has one element. -/
def STy.bytes (u : List Event) : STy → Option Nat
  | .plain size _ => some size
  | .arr e _ n => some (e * n)
  | .unsized e _ => some e
  | .tag s => (tagOf u s).map (·.1)

def STy.align (u : List Event) : STy → Option Nat
  | .plain _ a => some a
  | .arr _ a _ => some a
  | .unsized _ a => some a
  | .tag s => (tagOf u s).map (·.2)

/-- A unit without constraint violations or undefined behaviour in its declarations: a name is declared
as one kind of thing, with compatible types, with one linkage and at most one initializer or body. -/
structure Valid (u : List Event) : Prop where
  kinds : ∀ x, objDecls u x = [] ∨ fnDecls u x = []
  types : ∀ x, ∀ d ∈ objDecls u x, ∀ d' ∈ objDecls u x, d.type.compat d'.type
  once : ∀ x, ((objDecls u x).filter fun d => d.init.isSome).length ≤ 1
  specs : ∀ x, ∀ d ∈ objDecls u x, ¬ (d.static = true ∧ d.extern = true)
  internal : ∀ a d b, u = a ++ .obj d :: b → d.static = true → Declared a d.name → Internal a d.name
  external : ∀ a d b, u = a ++ .obj d :: b → d.static = false → Internal a d.name → d.extern = true
  complete : ∀ x, Defined u x → ∀ t, FinalTy u x t → (t.bytes u).isSome
  tags : ∀ a s n m b, u = a ++ .tag s n m :: b → tagOf a s = none
  bodies : ∀ x, ((fnDecls u x).filter fun d => d.body.isSome && !(d.gnu && d.inline && d.extern)).length ≤ 1
  gnu : ∀ a d b, u = a ++ .fn d :: b → d.body.isSome = true → (d.gnu && d.inline && d.extern) = true →
    ∀ d' ∈ fnDecls a d.name, d'.body.isSome = true → (d'.gnu && d'.inline && d'.extern) = true
  internalFn : ∀ a d b, u = a ++ .fn d :: b → d.static = true → Declared a d.name → InternalFn a d.name

/-- The type was complete when the object was declared first. -/
def Known (a : List Event) (x : Nat) : Prop :=
  ∀ p d q, a = p ++ .obj d :: q → d.name = x → objDecls p x = [] → ∀ t, d.ty = .tag t → (tagOf p t).isSome = true

/-- The last tentative definition of an object without initializer gives the length of the array if any
declaration does. -/
def Lengths (u : List Event) (x : Nat) : Prop :=
  (∀ d ∈ objDecls u x, d.init = none) → ∀ p d q, objDecls u x = p ++ d :: q → d.tentative →
    (∀ d' ∈ q, ¬ d'.tentative) → d.type.sized = false → ∀ d' ∈ objDecls u x, d'.type.sized = false

/-- 6.7.5: a definition is external unless the linkage is internal or all declarations have `inline` and
none `extern`. -/
def ExternalFn (u : List Event) (x : Nat) : Prop :=
  ¬ InternalFn u x ∧ ∃ d ∈ fnDecls u x, d.inline = false ∨ d.extern = true

/-- The unit has a definition of the function that is to be written (one that is GNU `extern inline` is
not). -/
def DefinedFn (u : List Event) (x : Nat) : Prop :=
  ∃ d ∈ fnDecls u x, d.body.isSome = true ∧ (d.gnu && d.inline && d.extern) = false

/-- What a use of a name stands for. -/
inductive Ref where
  | loc (k : Nat)
  | symbol (x : Nat)
  deriving DecidableEq, Repr

/-- The innermost declaration that can be seen. -/
def seen (env : List (Nat × Ref)) (x : Nat) : Option Ref := (env.find? fun p => p.1 == x).map (·.2)

/-- What the uses inside a function stand for; a declaration with linkage makes the name stand for the
symbol. -/
def Body.refs : Body → List (Nat × Ref) → List (Option Ref)
  | .nil, _ => []
  | .var x k r, env => r.refs ((x, .loc k) :: env)
  | .ext x _ r, env => r.refs ((x, .symbol x) :: env)
  | .proto x r, env => r.refs ((x, .symbol x) :: env)
  | .use x r, env => seen env x :: r.refs env
  | .block b r, env => b.refs env ++ r.refs env

/-- No declaration with linkage is made where an object without linkage hides the name. -/
def Body.Open : Body → List (Nat × Ref) → Prop
  | .nil, _ => True
  | .var x k r, env => r.Open ((x, .loc k) :: env)
  | .ext x _ r, env => (∀ k, seen env x ≠ some (.loc k)) ∧ r.Open ((x, .symbol x) :: env)
  | .proto x r, env => (∀ k, seen env x ≠ some (.loc k)) ∧ r.Open ((x, .symbol x) :: env)
  | .use _ r, env => r.Open env
  | .block b r, env => b.Open env ∧ r.Open env

/-- All uses in a unit; at file scope only names with linkage are declared. -/
def unitRefs : List Event → List (Nat × Ref) → List (Option Ref)
  | [], _ => []
  | .obj d :: u, env => unitRefs u ((d.name, .symbol d.name) :: env)
  | .fn d :: u, env =>
    (match d.body with | some b => b.refs ((d.name, .symbol d.name) :: env) | none => []) ++
      unitRefs u ((d.name, .symbol d.name) :: env)
  | .tag _ _ _ :: u, env => unitRefs u env

def UnitOpen : List Event → List (Nat × Ref) → Prop
  | [], _ => True
  | .obj d :: u, env => UnitOpen u ((d.name, .symbol d.name) :: env)
  | .fn d :: u, env =>
    (∀ b, d.body = some b → b.Open ((d.name, .symbol d.name) :: env)) ∧ UnitOpen u ((d.name, .symbol d.name) :: env)
  | .tag _ _ _ :: u, env => UnitOpen u env

/-- A symbol defined in the object file. -/
structure Datum where
  name : Nat
  isLocal : Bool
  init : Option Init
  size : Nat
  align : Nat
  deriving DecidableEq, Repr

end Slimcc.Spec.Link
