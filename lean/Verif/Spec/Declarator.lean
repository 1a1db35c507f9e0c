/-!
Declarators of C (C23 6.7.7) and the types they give.

`Dcl` is the grammar: a declarator is a list of pointers in front of a direct declarator. `Dcl.text` is
how one is written and `Dcl.type` the type it gives to what it declares (6.7.7.2-6.7.7.4): pointers and
brackets and parameter lists are applied to the type of the specifiers from the outside inwards, so
that `int *(*f)(void)` makes `f` a pointer to a function that returns a pointer to `int`.

The specifiers of a parameter (`const unsigned long`) are one token here; so is the expression in
brackets. A declarator without a name is an abstract declarator (6.7.8); parameter declarations can
have either kind.
-/
set_option autoImplicit false
namespace Slimcc.Declr

inductive Qual where
  | const | volatile | restrict | atomic
  deriving DecidableEq, Repr

/-- A set of qualifiers. -/
structure Quals where
  const : Bool := false
  volatile : Bool := false
  restrict : Bool := false
  atomic : Bool := false
  deriving DecidableEq, Repr

def Quals.add (q : Quals) : Qual → Quals
  | .const => { q with const := true }
  | .volatile => { q with volatile := true }
  | .restrict => { q with restrict := true }
  | .atomic => { q with atomic := true }

/-- The set of the qualifiers in a list. -/
def Quals.of (l : List Qual) : Quals := l.foldl Quals.add {}

/-- The specifiers of a declaration: the keyword `void`, or something else, with qualifiers. -/
inductive Spec where
  | void
  | other (q : Quals) (id : Nat)
  deriving DecidableEq, Repr

/-- The length of an array: not given, a constant, or found when the program runs. -/
inductive Len where
  | unknown
  | const (n : Int)
  | var
  deriving DecidableEq, Repr

/-- Types. The qualifiers of an array are those in its brackets. Parameters have names or not; a
function without a prototype is `oldstyle`. -/
inductive Ty where
  | spec (s : Spec)
  | ptr (q : Quals) (t : Ty)
  | arr (q : Quals) (n : Len) (t : Ty)
  | fn (ret : Ty) (ps : List (Option Nat × Ty)) (variadic oldstyle : Bool)

def Ty.isArr : Ty → Bool
  | .arr .. => true
  | _ => false

def Ty.isFn : Ty → Bool
  | .fn .. => true
  | _ => false

def Ty.isVla : Ty → Bool
  | .arr _ .var _ => true
  | _ => false

/-- 6.7.7.4p5: what a function returns has no qualifiers. -/
def Ty.unqual : Ty → Ty
  | .spec (.other _ id) => .spec (.other {} id)
  | .ptr _ t => .ptr {} t
  | t => t

/-- 6.7.7.4p6-7: the type of a parameter. -/
def Ty.adjust : Ty → Ty
  | .arr q _ t => .ptr q t
  | .fn r ps v o => .ptr {} (.fn r ps v o)
  | t => t

/-- Tokens. `expr (some n)` is an expression that is a constant of value `n`, `expr none` is one that is
not a constant; `other` is anything else. -/
inductive Tok where
  | star | lp | rp | lb | rb | comma | semi | dots | static
  | qual (q : Qual)
  | spec (s : Spec)
  | ident (x : Nat)
  | expr (v : Option Int)
  | other (n : Nat)
  deriving DecidableEq, Repr

/-- What is in brackets. -/
inductive Size where
  | none
  | star
  | expr (v : Option Int)
  deriving DecidableEq, Repr

/-- Brackets: qualifiers, then `static` or not, then the size. -/
structure Br where
  quals : List Qual
  static : Bool
  size : Size
  deriving DecidableEq, Repr

mutual
inductive Dcl where
  | mk (ptrs : List (List Qual)) (d : Direct)
inductive Direct where
  | name (x : Nat)
  /-- nothing, in an abstract declarator -/
  | abs
  | paren (d : Dcl)
  | arr (d : Direct) (b : Br)
  | fn (d : Direct) (ps : Pars)
/-- What is between the parentheses of a function declarator. -/
inductive Pars where
  | empty
  | void
  | dots
  | list (s : Spec) (d : Dcl) (tl : ParTl)
inductive ParTl where
  | done
  | dots
  | more (s : Spec) (d : Dcl) (tl : ParTl)
end

/-! ### How they are written -/

def Br.text (b : Br) : List Tok :=
  .lb :: b.quals.map Tok.qual ++ (if b.static then [.static] else []) ++
    (match b.size with | .none => [] | .star => [.star] | .expr v => [.expr v]) ++ [.rb]

def ptrText (qs : List Qual) : List Tok := .star :: qs.map Tok.qual

mutual
def Dcl.text : Dcl → List Tok
  | .mk ps d => ps.flatMap ptrText ++ d.text
def Direct.text : Direct → List Tok
  | .name x => [.ident x]
  | .abs => []
  | .paren d => .lp :: d.text ++ [.rp]
  | .arr d b => d.text ++ b.text
  | .fn d ps => d.text ++ .lp :: ps.text ++ [.rp]
def Pars.text : Pars → List Tok
  | .empty => []
  | .void => [.spec .void]
  | .dots => [.dots]
  | .list s d tl => .spec s :: d.text ++ tl.text
def ParTl.text : ParTl → List Tok
  | .done => []
  | .dots => [.comma, .dots]
  | .more s d tl => .comma :: .spec s :: d.text ++ tl.text
end

/-! ### What they declare -/

mutual
/-- The name that is declared. -/
def Dcl.declared : Dcl → Option Nat
  | .mk _ d => d.declared
def Direct.declared : Direct → Option Nat
  | .name x => some x
  | .abs => none
  | .paren d => d.declared
  | .arr d _ => d.declared
  | .fn d _ => d.declared
end

/-- `* q1 * q2 …` in front: pointer with `q2` to pointer with `q1` to `t`. -/
def ptrTo (ps : List (List Qual)) (t : Ty) : Ty := ps.foldl (fun t q => .ptr (Quals.of q) t) t

/-- 6.7.7.3: an array of `t`. Its length is a constant only if the size is one and `t` has a length that
is known before the program runs. -/
def Br.of (b : Br) (t : Ty) : Ty :=
  .arr (Quals.of b.quals)
    (match b.size with
     | .none | .star => .unknown
     | .expr none => .var
     | .expr (some n) => if t.isVla then .var else .const n) t

section
variable (c23 : Bool)

/-- Before C23, `()` said nothing about the parameters. -/
def Pars.oldstyle : Pars → Bool
  | .empty => !c23
  | _ => false

/-- Is there a `...`? -/
def ParTl.variadic : ParTl → Bool
  | .done => false
  | .dots => true
  | .more _ _ tl => tl.variadic

def Pars.variadic : Pars → Bool
  | .empty => false
  | .void => false
  | .dots => true
  | .list _ _ tl => tl.variadic

mutual
/-- The type that is declared, when `t` is the type of the specifiers. -/
def Dcl.type : Dcl → Ty → Ty
  | .mk ps d, t => d.type (ptrTo ps t)
def Direct.type : Direct → Ty → Ty
  | .name _, t => t
  | .abs, t => t
  | .paren d, t => d.type t
  | .arr d b, t => d.type (b.of t)
  | .fn d ps, t => d.type (.fn t.unqual ps.params ps.variadic (ps.oldstyle c23))
/-- The parameters. -/
def Pars.params : Pars → List (Option Nat × Ty)
  | .empty => []
  | .void => []
  | .dots => []
  | .list s d tl => (d.declared, (d.type (.spec s)).adjust) :: tl.params
def ParTl.params : ParTl → List (Option Nat × Ty)
  | .done => []
  | .dots => []
  | .more s d tl => (d.declared, (d.type (.spec s)).adjust) :: tl.params
end

/-! ### Which declarators C allows -/

/-- No text. -/
def Dcl.isEmpty : Dcl → Bool
  | .mk [] .abs => true
  | _ => false

def Direct.isAbs : Direct → Bool
  | .abs => true
  | _ => false

def Pars.isDots : Pars → Bool
  | .dots => true
  | _ => false

/-- The only parameter is `void` without a name: that is the list `void` instead. -/
def soleVoid : Spec → Dcl → ParTl → Bool
  | .void, .mk [] .abs, .done => true
  | _, _, _ => false

/-- Brackets of a plain array: qualifiers, `static` and `[*]` are for parameters only. -/
def Br.plain (b : Br) : Bool := b.quals.isEmpty && !b.static && b.size != .star

/-- `static` comes with a size. -/
def Br.fine (b : Br) : Bool := !b.static || (b.size != .none && b.size != .star)

/-- The array is not one whose length is found when the program runs, or those are allowed (`cc` is
false). -/
def Br.allowed (cc : Bool) (b : Br) (t : Ty) : Prop := cc = true → (b.of t).isVla = false

/-- No further type is derived: only a name or nothing, in parentheses or not. -/
def Direct.last : Direct → Bool
  | .name _ => true
  | .abs => true
  | .paren (.mk [] d) => d.last
  | _ => false

mutual
/-- 6.7.7.2-4: a declarator that may follow specifiers such that the type so far is `t`. `par` says that
it is the declarator of a parameter. `cc` says that an array must not have a length found when the
program runs, as at file scope; `pc` says the same of the parameters of functions, where C always
allows it. -/
def Dcl.Ok (pc : Bool) : Dcl → (cc par : Bool) → Ty → Prop
  | .mk ps d, cc, par, t => d.Ok pc cc par (ptrTo ps t)
def Direct.Ok (pc : Bool) : Direct → (cc par : Bool) → Ty → Prop
  | .name _, _, _, _ => True
  | .abs, _, _, _ => True
  | .paren d, cc, par, t => d.isEmpty = false ∧ d.Ok pc cc par t
  | .arr d b, cc, par, t =>
    t.isFn = false ∧ b.fine = true ∧ (b.plain = true ∨ (par = true ∧ d.last = true)) ∧ b.allowed cc t ∧
      d.Ok pc cc par (b.of t)
  | .fn d ps, cc, par, t =>
    t.isFn = false ∧ t.isArr = false ∧ (ps.isDots = true → d.isAbs = false) ∧ ps.Ok pc ∧
      d.Ok pc cc par (.fn t.unqual (ps.params c23) ps.variadic (ps.oldstyle c23))
def Pars.Ok (pc : Bool) : Pars → Prop
  | .empty => True
  | .void => True
  | .dots => True
  | .list s d tl => d.Ok pc pc true (.spec s) ∧ tl.Ok pc ∧ soleVoid s d tl = false
def ParTl.Ok (pc : Bool) : ParTl → Prop
  | .done => True
  | .dots => True
  | .more s d tl => d.Ok pc pc true (.spec s) ∧ tl.Ok pc
end

end

/-- A list of declarators with commas between them and a semicolon at the end. -/
def listText : List Dcl → List Tok
  | [] => [.semi]
  | [d] => d.text ++ [.semi]
  | d :: ds => d.text ++ .comma :: listText ds

/-- A token that can come after a declarator. -/
def Tok.follows : Tok → Bool
  | .star | .lp | .lb | .ident _ | .qual _ => false
  | _ => true

def Follows (l : List Tok) : Prop := ∀ t ∈ l.head?, Tok.follows t = true

end Slimcc.Declr
