import Verif.Spec.Link
/-!
Model of the declarations at file scope and of those with linkage in functions (parse.c: `find_var`
236-243, `new_var`, `new_gvar` 464-486, `compound_stmt` 2660-2705, `gvar_initializer` 2174-2185,
`find_func` 4540-4549, `func_prototype` 4563-4585, `func_attr` 711-728, `func_definition` 4587-4629,
`global_declaration` 4631-4703; codegen.c: `emit_symbol` 3874-3889, `emit_data` 3891-3970, `codegen`
4244-4273).

Simplifications: names are numbers; parameters are the first variables of the body; `_Alignas`,
`constexpr`, thread-local storage and the attributes other than `gnu_inline` are left out, as are asm
names; types are what their storage is; a second initializer is not read, which is a syntax error at `=`.
-/
set_option autoImplicit false
namespace Slimcc.Globals
open Slimcc.Spec.Link

/-- slimcc.h `Obj`, of a variable or function with linkage. -/
structure GObj where
  name : Nat
  fn : Bool
  ty : STy
  align : Nat
  isStatic : Bool
  isDef : Bool
  isTent : Bool
  isInline : Bool
  init : Option Init
  deriving Repr, DecidableEq

/-- `VarScope.var`: an object with linkage, or a variable of a function. -/
inductive Entry where
  | obj (i : Nat)
  | loc (k : Nat)
  deriving DecidableEq, Repr

/-- `Scope.vars`, the latest entry first. -/
abbrev Frame := List (Nat × Entry)

/-- The objects in the order of creation (`globals` is its reverse), the file scope, the tags that are
complete, and what the uses so far stand for. -/
structure St where
  objs : List GObj
  file : Frame
  tags : Nat → Option (Nat × Nat)
  refs : List (Option Ref)

def St.init : St := ⟨[], [], fun _ => none, []⟩

def look (f : Frame) (x : Nat) : Option Entry := (f.find? fun p => p.1 == x).map (·.2)

/-- parse.c:236-243 `find_var`: `inner` are the scopes inside the function. -/
def findVar (inner : List Frame) (file : Frame) (x : Nat) : Option Entry :=
  match inner with
  | [] => look file x
  | f :: r => (look f x).orElse fun _ => findVar r file x

/-- type.c: the alignment of a type now; that of an incomplete structure is 1 (parse.c:3764). -/
def alignNow (tags : Nat → Option (Nat × Nat)) : STy → Nat
  | .plain _ a => a
  | .arr _ a _ => a
  | .unsized _ a => a
  | .tag s => match tags s with | some p => p.2 | none => 1

/-- parse.c:464-486 `new_gvar`, without the entry in the scope. -/
def newGvar (s : St) (fn : Bool) (x : Nat) (t : STy) : GObj :=
  ⟨x, fn, t, alignNow s.tags t, false, false, false, false, none⟩

/-- parse.c:410-414 `push_scope`. -/
def push (inner : List Frame) (x : Nat) (e : Entry) : List Frame :=
  match inner with
  | [] => []
  | f :: r => ((x, e) :: f) :: r

/-- parse.c:4540-4549 `find_func`. -/
def findFunc (s : St) (x : Nat) : Option Nat :=
  match look s.file x with
  | some (.obj i) =>
    match s.objs[i]? with
    | some g => if g.fn then some i else none
    | none => none
  | _ => none

/-- What an entry stands for in the assembly output. -/
def refOf (objs : List GObj) : Entry → Option Ref
  | .obj i => (objs[i]?).map fun g => .symbol g.name
  | .loc k => some (.loc k)

/-- parse.c:2660-2705: the declarations and uses of a function. `extern` declarations are those of
`global_declaration` without an initializer (4660-4674), declarations of functions those of
`func_prototype`. -/
def runBody : Body → List Frame → St → St
  | .nil, _, s => s
  | .var x k r, inner, s => runBody r (push inner x (.loc k)) s
  | .ext x t r, inner, s =>
    match findVar inner s.file x with
    | some _ => runBody r inner s
    | none => runBody r (push inner x (.obj s.objs.length)) { s with objs := s.objs ++ [newGvar s false x t] }
  | .proto x r, inner, s =>
    match findFunc s x with
    | some _ => runBody r inner s
    | none =>
      runBody r (push inner x (.obj s.objs.length)) { s with objs := s.objs ++ [newGvar s true x (.plain 1 1)] }
  | .use x r, inner, s =>
    runBody r inner { s with refs := s.refs ++ [(findVar inner s.file x).bind (refOf s.objs)] }
  | .block b r, inner, s => runBody r inner (runBody b ([] :: inner) s)

/-- parse.c:4680-4700 for an object that is declared now. -/
def declare (g : GObj) (d : ObjDecl) (isDef : Bool) : GObj :=
  match d.init with
  | some i => { g with isDef := isDef, isStatic := d.static, ty := d.type, init := some i }
  | none => { g with isDef := isDef, isStatic := d.static, isTent := if isDef then true else g.isTent }

/-- parse.c:4655-4702. -/
def globalObj (d : ObjDecl) (s : St) : Option St :=
  let isDef := !d.extern || d.init.isSome
  match look s.file d.name with
  | some (.obj i) =>
    match s.objs[i]? with
    | some g =>
      if !isDef then some s
      else if g.isDef && !g.isTent then if d.init.isSome then none else some s
      else some { s with objs := s.objs.set i (declare { g with isTent := false, ty := d.ty } d isDef) }
    | none => none
  | some (.loc _) => none
  | none =>
    some { s with
      objs := s.objs ++ [declare (newGvar s false d.name d.ty) d isDef]
      file := (d.name, .obj s.objs.length) :: s.file }

/-- parse.c:4563-4585 `func_prototype` at file scope: the function and the new state. -/
def funcProto (d : FnDecl) (s : St) : Option (Nat × St) :=
  match findFunc s d.name with
  | some i =>
    match s.objs[i]? with
    | some g =>
      if !g.isStatic && d.static then none
      else some (i, { s with objs := s.objs.set i { g with isInline := g.isInline || d.inline } })
    | none => none
  | none =>
    some (s.objs.length, { s with
      objs := s.objs ++ [{ newGvar s true d.name (.plain 1 1) with
        isStatic := d.static || (d.inline && !d.extern), isInline := d.inline }]
      file := (d.name, .obj s.objs.length) :: s.file })

def setDef (s : St) (i : Nat) (b : Bool) : St :=
  match s.objs[i]? with
  | some g => { s with objs := s.objs.set i { g with isDef := b } }
  | none => s

/-- parse.c:4587-4629 `func_definition`; 711-728: `only_inline`. -/
def funcDef (d : FnDecl) (b : Body) (i : Nat) (s : St) : Option St :=
  match s.objs[i]? with
  | some g =>
    if g.isDef then none
    else
      let s := runBody b [[]] (setDef s i true)
      some (if d.gnu && d.inline && d.extern then setDef s i false else s)
  | none => none

/-- parse.c:4631-4703 `global_declaration`, and the completion of a tag (3800-3812). -/
def event : Event → St → Option St
  | .obj d, s => globalObj d s
  | .fn d, s =>
    match funcProto d s with
    | some (i, s) =>
      match d.body with
      | some b => funcDef d b i s
      | none => some s
    | none => none
  | .tag t size align, s => some { s with tags := fun t' => if t' = t then some (size, align) else s.tags t' }

/-- parse.c:4725-4775 `parse`; none if the unit is rejected. -/
def unit : List Event → St → Option St
  | [], s => some s
  | e :: u, s => (event e s).bind (unit u)

/-- codegen.c:3892-3900: the size of an object at the end of the unit; -1 is none. -/
def sizeEnd (s : St) (g : GObj) : Option Nat :=
  match g.ty with
  | .plain n _ => some n
  | .arr e _ n => some (e * n)
  | .unsized e _ => if g.isTent then some e else none
  | .tag t => (s.tags t).map (·.1)

def isArray : STy → Bool
  | .arr _ _ _ | .unsized _ _ => true
  | _ => false

/-- codegen.c:3891-3970 `emit_data`: the symbol, its storage and its contents (none is zeros). -/
def datum (s : St) (g : GObj) : Option Datum :=
  (sizeEnd s g).map fun n => ⟨g.name, g.isStatic, g.init, n, if isArray g.ty && decide (16 ≤ n) then max 16 g.align else g.align⟩

/-- codegen.c:4252-4269: the data. -/
def data (s : St) : List Datum := (s.objs.reverse.filter fun g => g.isDef && !g.fn).filterMap (datum s)

/-- codegen.c:4252-4266, 3874-3881: the functions that may be written (those that are live, see
`Model.Live`), with `.local` or `.globl`. -/
def functions (s : St) : List (Nat × Bool) :=
  (s.objs.reverse.filter fun g => g.isDef && g.fn).map fun g => (g.name, g.isStatic)

end Slimcc.Globals
