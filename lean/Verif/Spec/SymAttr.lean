/-!
Attributes that say how a function or an object appears in the object file (GCC manual, "Common Function
Attributes" and "Common Variable Attributes"): where in a declaration they can stand, and what they say
about the entity that all its declarations declare.
-/
set_option autoImplicit false
namespace Slimcc.Spec.SymAttr

/-- Attributes with their arguments; priorities are the values of constant expressions. -/
inductive Attr where
  | weak
  | aliasOf (s : String)
  | sect (s : String)
  | vis (s : String)
  | ctor (p : Option Int)
  | dtor (p : Option Int)
  | other (s : String)
  deriving DecidableEq, Repr

/-- An attribute in one of the two forms, `[[gnu::a]]` (`std`) or `__attribute__((a))`. -/
structure Marked where
  std : Bool
  attr : Attr
  deriving DecidableEq, Repr

/-- A declaration of one name: for each token the attributes that stand directly in front of it. The tokens
`0 … nspec - 1` are the declaration specifiers, token `nspec` starts the first declarator, token `name` is the
name, and token `fin` is the first one after the declarator. If that is an assembler label, `afterAsm` are the
attributes behind the label. -/
structure Decl where
  toks : List (List Marked)
  nspec : Nat
  name : Nat
  fin : Nat
  afterAsm : List Marked
  isStatic : Bool
  isExtern : Bool
  /-- with a body or an initializer -/
  value : Bool
  deriving Repr

/-- The attributes in front of token `i`. -/
def Decl.before (d : Decl) (i : Nat) : List Marked := d.toks.getD i []

/-- The declaration gives the attribute to what it declares: `[[…]]` at its start or after the name
(C23 6.7.1, 6.7.7.1), `__attribute__` among the specifiers, in front of the name, after the declarator or
after its assembler label. -/
def Decl.Has (d : Decl) (a : Attr) : Prop :=
  ⟨true, a⟩ ∈ d.before 0 ∨ (∃ i, i ≤ d.nspec ∧ ⟨false, a⟩ ∈ d.before i) ∨ ⟨false, a⟩ ∈ d.before d.name ∨
    ⟨true, a⟩ ∈ d.before (d.name + 1) ∨ ⟨false, a⟩ ∈ d.before d.fin ∨ ⟨false, a⟩ ∈ d.afterAsm

/-- One of the declarations gives the attribute. -/
def Has (ds : List Decl) (a : Attr) : Prop := ∃ d ∈ ds, d.Has a

/-- Priorities are from 0 to 65535; the latter is the one without an argument. -/
def prio (p : Option Int) : Nat := (p.getD 65535).toNat
def PrioOk (p : Option Int) : Prop := ∀ v, p = some v → 0 ≤ v ∧ v ≤ 65535

/-- The declarations do not contradict each other. -/
structure Consistent (ds : List Decl) : Prop where
  aliasOf : ∀ s t, Has ds (.aliasOf s) → Has ds (.aliasOf t) → s = t
  sect : ∀ s t, Has ds (.sect s) → Has ds (.sect t) → s = t
  vis : ∀ s t, Has ds (.vis s) → Has ds (.vis t) → s = t
  ctor : ∀ p q, Has ds (.ctor p) → Has ds (.ctor q) → prio p = prio q
  dtor : ∀ p q, Has ds (.dtor p) → Has ds (.dtor q) → prio p = prio q
  ctorOk : ∀ p, Has ds (.ctor p) → PrioOk p
  dtorOk : ∀ p, Has ds (.dtor p) → PrioOk p

/-- Lines of the assembly output about a symbol. -/
inductive Line where
  | locl | weak | globl
  | set (target : String)
  | visibility (v : String)
  | comm
  /-- `.section "name"`, and whether the name of the symbol is appended to it -/
  | sect (name : String) (suffix : Bool)
  /-- one of the sections the compiler chooses itself -/
  | defaultSect
  | text
  | definition
  /-- the address of the function in `.init_array`/`.fini_array`, or in `.init_array.n` -/
  | entry (fini : Bool) (n : Option Nat)
  deriving DecidableEq, Repr

/-- How a linker orders the pieces of `.init_array`: those with a number ascending, then the one without
(`SORT_BY_INIT_PRIORITY`). The entries run in this order, those of `.fini_array` in the opposite one. -/
def rank : Option Nat → Nat
  | some n => n
  | none => 65535

/-- The part of the name of the section after `.init_array`. -/
def secOf (p : Option Int) : Option Nat := if prio p < 65535 then some (prio p) else none

/-- The lines give the symbol the binding, target and visibility that the attributes `A` ask for; `dflt` is the
visibility of symbols without the attribute. -/
structure Shows (A : Attr → Prop) (isStatic : Bool) (dflt : Option String) (ls : List Line) : Prop where
  locl : .locl ∈ ls ↔ isStatic = true
  weak : .weak ∈ ls ↔ isStatic = false ∧ A .weak
  globl : .globl ∈ ls ↔ isStatic = false ∧ ¬ A .weak
  target : ∀ t, .set t ∈ ls ↔ A (.aliasOf t)
  visibility : ∀ v, .visibility v ∈ ls ↔ (v = "hidden" ∨ v = "internal" ∨ v = "protected") ∧
    (A (.vis v) ∨ (∀ w, ¬ A (.vis w)) ∧ dflt = some v)

/-- There is a definition of the object, tentative or not. -/
def Defined (ds : List Decl) : Prop := ∃ d ∈ ds, d.isExtern = false ∨ d.value = true

/-- No token has two attributes in front of it, in the same form, that name different sections,
visibilities or targets. -/
def Single (ds : List Decl) : Prop := ∀ d ∈ ds, ∀ i b,
  (∀ s t, ⟨b, .sect s⟩ ∈ d.before i → ⟨b, .sect t⟩ ∈ d.before i → s = t) ∧
  (∀ s t, ⟨b, .vis s⟩ ∈ d.before i → ⟨b, .vis t⟩ ∈ d.before i → s = t) ∧
  (∀ s t, ⟨b, .aliasOf s⟩ ∈ d.before i → ⟨b, .aliasOf t⟩ ∈ d.before i → s = t)

end Slimcc.Spec.SymAttr
