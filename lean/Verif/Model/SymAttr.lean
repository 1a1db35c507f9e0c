import Verif.Spec.SymAttr
/-!
Model of the attributes of symbols (parse.c: `apply_cdtor_attr`, `cdtor_attr`, `bool_attr`, `apply_str_attr`,
`str_attr`, `tyspec_attr` 627-690, `DeclAttr`, `symbol_attr`, `func_attr` 692-728, `declspec` 767-779,
`global_declaration` 4631-4703; codegen.c: `emit_symbol` 3874-3889, `emit_data` 3917-3945, `emit_cdtor`
4028-4037, `emit_text` 4039-4048, 4173-4176, `codegen` 4253-4268).

Simplifications: one entity at a time; the arguments of attributes are their values; `aligned`, `cleanup`,
`returns_twice` and `gnu_inline` are left out, so are thread-local objects and functions that are only inline.
What is written is reduced to the lines about the symbol.
-/
set_option autoImplicit false
namespace Slimcc.SymAttr
open Slimcc.Spec.SymAttr

/-- slimcc.h: the fields that `VarAttr` and `Obj` share. `is_ctor` and `ctor_prior` are one field. -/
structure Sym where
  weak : Bool := false
  ctor : Option Nat := none
  dtor : Option Nat := none
  aliasOf : Option String := none
  sect : Option String := none
  vis : Option String := none
  deriving DecidableEq, Repr

/-- `equal_ext(tok, name)` and the argument. -/
def Attr.alias? : Attr → Option String | .aliasOf s => some s | _ => none
def Attr.sect? : Attr → Option String | .sect s => some s | _ => none
def Attr.vis? : Attr → Option String | .vis s => some s | _ => none
def Attr.ctor? : Attr → Option (Option Int) | .ctor p => some p | _ => none
def Attr.dtor? : Attr → Option (Option Int) | .dtor p => some p | _ => none

/-- parse.c:627-634; `none` is the error. -/
def applyCdtor (cur : Option Nat) (pri : Nat) (apply : Bool) : Option (Option Nat) :=
  if apply then
    match cur with
    | some q => if q ≠ pri then none else some (some pri)
    | none => some (some pri)
  else some cur

/-- parse.c:641-644: `uint16_t pri`. -/
def pri16 : Option Int → Nat
  | none => 0
  | some v => ((min v 65535 + 1) % 65536).toNat

/-- parse.c:636-648. -/
def cdtorAttr (g : Attr → Option (Option Int)) (std : Bool) : List Marked → Option Nat → Option (Option Nat)
  | [], c => some c
  | m :: ms, c =>
    match (if m.std = std then g m.attr else none) with
    | some p => (applyCdtor c (pri16 p) true).bind (cdtorAttr g std ms)
    | none => cdtorAttr g std ms c

/-- parse.c:650-657 for `weak`. -/
def boolAttr (std : Bool) (loc : List Marked) (b : Bool) : Bool := b || decide (⟨std, .weak⟩ ∈ loc)

/-- parse.c:659-666. -/
def applyStr (cur new : Option String) : Option (Option String) :=
  match cur with
  | none => some new
  | some a =>
    match new with
    | some b => if a = b then some (some a) else none
    | none => some (some a)

/-- parse.c:668-677. -/
def strAttr (g : Attr → Option String) (std : Bool) (loc : List Marked) (cur : Option String) : Option (Option String) :=
  match loc.findSome? (fun m => if m.std = std then g m.attr else none) with
  | none => some cur
  | some s => applyStr cur (some s)

/-- parse.c:679-690. -/
def tyspec (std : Bool) (loc : List Marked) (s : Sym) : Option Sym :=
  (cdtorAttr Attr.ctor? std loc s.ctor).bind fun ct =>
  (cdtorAttr Attr.dtor? std loc s.dtor).bind fun dt =>
  (strAttr Attr.alias? std loc s.aliasOf).bind fun al =>
  (strAttr Attr.sect? std loc s.sect).bind fun se =>
  (strAttr Attr.vis? std loc s.vis).map fun vi =>
  ⟨boolAttr std loc s.weak, ct, dt, al, se, vi⟩

/-- parse.c:767-779, and again at every specifier and at the token after them. -/
def specPlaces (d : Decl) : List (Bool × List Marked) :=
  (true, d.before 0) :: (List.range (d.nspec + 1)).map fun i => (false, d.before i)
def declspec (d : Decl) : Option Sym := (specPlaces d).foldlM (fun s p => tyspec p.1 p.2 s) {}

/-- parse.c:692-695 `DeclAttr`: three calls. -/
def declPlaces (d : Decl) : List (Bool × List Marked) :=
  [(false, d.before d.name), (true, d.before (d.name + 1)), (false, d.before d.fin)]
def declAttr {α : Type} (f : Bool → List Marked → α → Option α) (d : Decl) (a : α) : Option α :=
  (declPlaces d).foldlM (fun a p => f p.1 p.2 a) a

/-- parse.c:697-709. -/
def symbolAttr (d : Decl) (a o : Sym) : Option Sym :=
  ((applyStr o.aliasOf a.aliasOf).bind (declAttr (strAttr Attr.alias?) d)).bind fun al =>
  ((applyStr o.sect a.sect).bind (declAttr (strAttr Attr.sect?) d)).bind fun se =>
  ((applyStr o.vis a.vis).bind (declAttr (strAttr Attr.vis?) d)).map fun vi =>
  { o with aliasOf := al, sect := se, vis := vi,
           weak := (declPlaces d).foldl (fun b p => boolAttr p.1 p.2 b) (o.weak || a.weak) }

/-- parse.c:711-716. -/
def funcAttr (d : Decl) (a o : Sym) : Option Sym :=
  ((applyCdtor o.ctor (a.ctor.getD 0) a.ctor.isSome).bind (declAttr (cdtorAttr Attr.ctor?) d)).bind fun ct =>
  ((applyCdtor o.dtor (a.dtor.getD 0) a.dtor.isSome).bind (declAttr (cdtorAttr Attr.dtor?) d)).map fun dt =>
  { o with ctor := ct, dtor := dt }

/-- The options `-fvisibility=`, `-fcommon` and `-fdata-sections`. -/
structure Opts where
  visibility : Option String
  fcommon : Bool
  dataSections : Bool

/-- codegen.c:3884-3888. -/
def visLines (op : Opts) (o : Sym) : List Line :=
  match o.vis.orElse fun _ => op.visibility with
  | some v => if v = "hidden" ∨ v = "internal" ∨ v = "protected" then [.visibility v] else []
  | none => []

/-- codegen.c:3874-3889. -/
def emitSymbol (op : Opts) (isStatic : Bool) (o : Sym) : List Line :=
  (if isStatic then .locl else if o.weak then .weak else .globl) ::
    (match o.aliasOf with | some t => [.set t] | none => []) ++ visLines op o

/-- codegen.c:4028-4037. -/
def emitCdtor (fini : Bool) (pri : Option Nat) : List Line :=
  match pri with
  | some p => [.entry fini (if p ≠ 0 then some ((p - 1) % 65536) else none)]
  | none => []

/-- codegen.c:4039-4048, 4173-4176. -/
def emitText (op : Opts) (isStatic : Bool) (o : Sym) : List Line :=
  emitSymbol op isStatic o ++ [.text, .definition] ++ emitCdtor false o.ctor ++ emitCdtor true o.dtor

/-- codegen.c:3917-3945. -/
def emitData (op : Opts) (isStatic tent : Bool) (o : Sym) : List Line :=
  emitSymbol op isStatic o ++
    (if op.fcommon && tent && !(o.weak || o.sect.isSome) then [.comm]
     else [(match o.sect with | some s => .sect s op.dataSections | none => .defaultSect), .definition])

/-- A function: its object, what `emit_text` wrote for it, and `is_referenced`. -/
structure Fn where
  isStatic : Bool
  sym : Sym
  out : Option (List Line)
  referenced : Bool

/-- parse.c:4639-4652 for one declaration of the function; 4563-4585 for the first one. -/
def declareFn (op : Opts) (d : Decl) (f : Fn) : Option Fn :=
  (declspec d).bind fun a => (funcAttr d a f.sym).bind fun o => (symbolAttr d a o).bind fun o =>
    if d.value then
      if f.out.isSome then none
      else some { f with sym := o, out := some (emitText op f.isStatic o), referenced := o.ctor.isSome || o.dtor.isSome }
    else some { f with sym := o }

/-- All declarations of a function, whose first one says that it is static or not (C61), and codegen.c:4253-4268
at the end: `is_live` is true. -/
def compileFn (op : Opts) (isStatic : Bool) (ds : List Decl) : Option (List Line × Bool) :=
  (ds.foldlM (fun f d => declareFn op d f) (Fn.mk isStatic {} none false)).map fun f =>
    match f.out with
    | some ls => (ls, f.referenced)
    | none => (if f.sym.weak || f.sym.aliasOf.isSome then emitSymbol op f.isStatic f.sym else [], false)

/-- An object. -/
structure Var where
  isStatic : Bool
  sym : Sym
  isDef : Bool
  isTent : Bool

/-- parse.c:4664-4700 for one declaration of the object, that of 4680-4682 included. -/
def declareVar (d : Decl) (v : Option Var) : Option Var :=
  (declspec d).bind fun a =>
    let isDef := !d.isExtern || d.value
    match v with
    | some v =>
      (symbolAttr d a v.sym).bind fun o =>
        if !isDef then some { v with sym := o }
        else if v.isDef && !v.isTent then if d.value then none else some { v with sym := o }
        else some ⟨d.isStatic, o, true, !d.value⟩
    | none => (symbolAttr d a {}).map fun o => ⟨d.isStatic, o, isDef, isDef && !d.value⟩

/-- All declarations of an object, and codegen.c:4253-4268. -/
def compileVar (op : Opts) (ds : List Decl) : Option (List Line) :=
  (ds.foldlM (fun v d => (declareVar d v).map some) none).map fun v =>
    match v with
    | some v =>
      if v.isDef then emitData op v.isStatic v.isTent v.sym
      else if v.sym.weak || v.sym.aliasOf.isSome then emitSymbol op v.isStatic v.sym else []
    | none => []

end Slimcc.SymAttr
