import Verif.Model.Basic
import Verif.Spec.Live
/-!
Which functions are emitted: the bookkeeping of the parser (parse.c:610-625, 4404-4420), the marking
(parse.c:4551-4561, 4768-4771) and the output (codegen.c:4247-4271).

Simplifications: an object is known by its place in `globals`; only functions are kept there; the
file scope is given as a function from names to objects (`find_func`, parse.c:4540-4549; C41 is
about scopes).
-/
set_option autoImplicit false
namespace Slimcc.Live
open Slimcc.Spec

/-- slimcc.h `Obj`, as far as it matters here. -/
structure Fn where
  name : List Nat
  isDef : Bool
  isStatic : Bool
  isInline : Bool
  refd : Bool
  refs : List (List Nat)
  live : Bool

/-- parse.c:4410-4418 (and 615-620 for `cleanup`): an identifier that is a function, in the body of
a function or (`none`) elsewhere. -/
def noteUse (u : FnUse) (fns : List Fn) : List Fn :=
  match fns[u.to]? with
  | none => fns
  | some t =>
    match u.by_ with
    | some i => fns.modify i fun f => { f with refs := f.refs ++ [t.name] }
    | none => fns.modify u.to fun f => { f with refd := true }

/-- All the uses, in the order of the source. -/
def noteUses : List FnUse → List Fn → List Fn
  | [], fns => fns
  | u :: us, fns => noteUses us (noteUse u fns)

/-- parse.c:4554. -/
def setLive (i : Nat) (fns : List Fn) : List Fn := fns.modify i fun f => { f with live := true }

/-- parse.c:4556-4560: the loop over the references; `mark` is the recursive call. -/
def markRefs (find : List Nat → Option Nat) (mark : Nat → List Fn → Option (List Fn)) : List (List Nat) → List Fn → Option (List Fn)
  | [], fns => some fns
  | n :: ns, fns =>
    match find n with
    | none => markRefs find mark ns fns
    | some j =>
      match mark j fns with
      | none => none
      | some fns => markRefs find mark ns fns

/-- parse.c:4551-4561 `mark_fn_live`. The number bounds the depth of the recursion; `none` is a
recursion that is deeper. -/
def markFnLive (find : List Nat → Option Nat) : Nat → Nat → List Fn → Option (List Fn)
  | 0, _, _ => none
  | k + 1, i, fns =>
    match fns[i]? with
    | none => some fns
    | some f => if f.live then some fns else markRefs find (markFnLive find k) f.refs (setLive i fns)

/-- parse.c:4769-4770: the functions to start from. -/
def isRoot (f : Fn) : Bool := f.isDef && (f.refd || !(f.isStatic && f.isInline))

/-- parse.c:4768-4771: the loop over `globals`, from the object `i` on; `n` are left. -/
def markAll (find : List Nat → Option Nat) (k : Nat) : Nat → Nat → List Fn → Option (List Fn)
  | 0, _, fns => some fns
  | n + 1, i, fns =>
    match fns[i]? with
    | none => some fns
    | some f =>
      if isRoot f then
        match markFnLive find k i fns with
        | none => none
        | some fns => markAll find k n (i + 1) fns
      else markAll find k n (i + 1) fns

/-- codegen.c:4252-4267: whether the code of a function is written. -/
def isWritten (f : Fn) : Bool := f.isDef && f.live

/-- What the source says, as the parser finds it: nothing is referred to yet. -/
def declared (names : List (List Nat)) (decls : List FnDecl) : List Fn :=
  List.zipWith (fun n d => ⟨n, d.defined, d.static, d.inline, false, [], false⟩) names decls

/-- The whole: the uses are noted while parsing, then the functions are marked (the depth is at most
their number). -/
def liveFns (find : List Nat → Option Nat) (names : List (List Nat)) (decls : List FnDecl) (uses : List FnUse) : Option (List Fn) :=
  markAll find (names.length + 1) names.length 0 (noteUses uses (declared names decls))

end Slimcc.Live
