import Verif.Model.Basic
import Verif.Spec.Scope
/-!
The scopes of the parser (parse.c:186-252) and the calls that declarations, uses, blocks and
functions make.

Simplifications: a scope is known by its number in the order of allocation; the contents of its two
hash maps are lists, the latest first (C01 is about the hash map); `VarScope` and `Type` are an
`Ent`. `locals`, `children` and `is_temporary` serve the code generator and are left out.
-/
set_option autoImplicit false
namespace Slimcc.Scp
open Slimcc.Spec

/-- slimcc.h `Scope`: `freed` says that the buckets of its maps have been freed. -/
structure Sc where
  parent : Option Nat
  vars : List (List Nat × Ent)
  tags : List (List Nat × Ent)
  freed : Bool

/-- `scope`, `current_fn` (whether there is one) and the scopes allocated so far; `proto` is the
`scopes` of the latest function type. -/
structure PS where
  scopes : List Sc
  cur : Nat
  inFn : Bool
  proto : Nat

/-- parse.c:121 `scope`: the file scope. -/
def PS.init : PS := ⟨[⟨none, [], [], false⟩], 0, false, 0⟩

/-- parse.c:190-195 `enter_scope`. -/
def enterScope (s : PS) : PS :=
  { s with scopes := s.scopes ++ [⟨some s.cur, [], [], false⟩], cur := s.scopes.length }

/-- parse.c:203-206: freeing the buckets. -/
def Sc.free (sc : Sc) : Sc := { sc with freed := true }

/-- parse.c:202-208 `leave_scope`. -/
def leaveScope (s : PS) : Outcome PS :=
  match s.scopes[s.cur]? with
  | none => .ub
  | some sc =>
    match sc.parent with
    | none => .ub
    | some p => .ok { s with scopes := if s.inFn then s.scopes.set s.cur sc.free else s.scopes, cur := p }

/-- parse.c:410-414 `push_scope`. -/
def pushScope (n : List Nat) (v : Ent) (s : PS) : Outcome PS :=
  match s.scopes[s.cur]? with
  | none => .ub
  | some sc => if sc.freed then .ub else .ok { s with scopes := s.scopes.set s.cur { sc with vars := (n, v) :: sc.vars } }

/-- parse.c:552-554 `push_tag_scope`. -/
def pushTagScope (n : List Nat) (t : Ent) (s : PS) : Outcome PS :=
  match s.scopes[s.cur]? with
  | none => .ub
  | some sc => if sc.freed then .ub else .ok { s with scopes := s.scopes.set s.cur { sc with tags := (n, t) :: sc.tags } }

/-- `hashmap_get2`: the latest entry. -/
def getEntry (n : List Nat) : List (List Nat × Ent) → Option Ent
  | [] => none
  | (m, v) :: l => if m = n then some v else getEntry n l

/-- The loop of parse.c:236-252 `find_var` and `find_tag`, which differ in the map. The number
bounds the steps; the chain of parents is not longer. -/
def walk (map : Sc → List (List Nat × Ent)) (n : List Nat) (scopes : List Sc) : Nat → Option Nat → Outcome (Option Ent)
  | _, none => .ok none
  | 0, some _ => .ub
  | k + 1, some i =>
    match scopes[i]? with
    | none => .ub
    | some sc =>
      if sc.freed then .ub
      else match getEntry n (map sc) with
        | some v => .ok (some v)
        | none => walk map n scopes k sc.parent

/-- parse.c:236-243 `find_var`. -/
def findVar (n : List Nat) (s : PS) : Outcome (Option Ent) := walk Sc.vars n s.scopes s.scopes.length (some s.cur)

/-- parse.c:245-252 `find_tag`. -/
def findTag (n : List Nat) (s : PS) : Outcome (Option Ent) := walk Sc.tags n s.scopes s.scopes.length (some s.cur)

/-- parse.c:4541-4543: the outermost scope (the number bounds the steps). -/
def outermost (scopes : List Sc) : Nat → Nat → Nat
  | 0, i => i
  | k + 1, i =>
    match scopes[i]? with
    | none => i
    | some sc =>
      match sc.parent with
      | none => i
      | some p => outermost scopes k p

/-- parse.c:4540-4549 `find_func`. -/
def findFunc (n : List Nat) (s : PS) : Option Ent :=
  match s.scopes[outermost s.scopes s.scopes.length s.cur]? with
  | none => none
  | some sc =>
    match getEntry n sc.vars with
    | some v => if v.kind = .func then some v else none
    | none => none

/-- The calls. `leaveParams` is `leave_scope` at the end of the parameters of a function type
(parse.c:1113-1146; `fn_ty->scopes` is noted), `enterBody` sets `current_fn` and goes back to that
scope (parse.c:4596-4605), `leaveBody` leaves it (parse.c:4619-4621). `proto` is `func_prototype`
(parse.c:4563-4585) and `extern` the declaration of a variable with `extern` (parse.c:4660-4673);
neither pushes anything if it finds the name. -/
inductive Call where
  | enter | leave | leaveParams | enterBody | leaveBody
  | var (n : List Nat) (v : Ent)
  | tag (n : List Nat) (t : Ent)
  | getVar (n : List Nat)
  | getTag (n : List Nat)
  | proto (n : List Nat) (v : Ent)
  | extern (n : List Nat) (v : Ent)

/-- A lookup leaves the state alone. -/
def found (s : PS) : Outcome (Option Ent) → Outcome (PS × List (Option Ent))
  | .ok r => .ok (s, [r])
  | .error => .error
  | .ub => .ub

/-- A call without a result. -/
def silent : Outcome PS → Outcome (PS × List (Option Ent))
  | .ok s => .ok (s, [])
  | .error => .error
  | .ub => .ub

/-- parse.c:4665: what `extern` finds is a variable or function. -/
def isVar : Option Ent → Bool
  | some v => v.kind != .other
  | none => false

/-- One call, with what it finds. -/
def call : Call → PS → Outcome (PS × List (Option Ent))
  | .enter, s => .ok (enterScope s, [])
  | .leave, s => silent (leaveScope s)
  | .leaveParams, s => silent (leaveScope { s with proto := s.cur })
  | .enterBody, s => .ok ({ s with cur := s.proto, inFn := true }, [])
  | .leaveBody, s => silent (leaveScope s >>= fun s => .ok { s with inFn := false })
  | .var n v, s => silent (pushScope n v s)
  | .tag n t, s => silent (pushTagScope n t s)
  | .getVar n, s => found s (findVar n s)
  | .getTag n, s => found s (findTag n s)
  | .proto n v, s => if (findFunc n s).isSome then .ok (s, []) else silent (pushScope n v s)
  | .extern n v, s => findVar n s >>= fun r => if isVar r then .ok (s, []) else silent (pushScope n v s)

/-- The calls one after the other, with all that is found. -/
def run : List Call → PS → Outcome (PS × List (Option Ent))
  | [], s => .ok (s, [])
  | c :: cs, s => call c s >>= fun r => run cs r.1 >>= fun q => .ok (q.1, r.2 ++ q.2)

/-- The declaration of a function's name. -/
def nameCall : Option (List Nat × Ent) → List Call
  | none => []
  | some (f, v) => [.var f v]

/-- The calls made for what the parser comes across: blocks (`compound_stmt` parse.c:2663 and 2707,
`new_block_scope` 210-213 and `leave_block_scope` 216), temporaries (parse.c:3346-3353, 4060-4096,
2608-2610) and functions (parse.c:1113-1146, 4563-4566, 4596-4621; the body is a `compound_stmt`). -/
def calls : Hist → List Call
  | .nil => []
  | .var n v r => .var n v :: calls r
  | .tag n t r => .tag n t :: calls r
  | .useVar n r => .getVar n :: calls r
  | .useTag n r => .getTag n :: calls r
  | .block b r => .enter :: (calls b ++ .leave :: calls r)
  | .tmp b r => .enter :: (calls b ++ .leave :: calls r)
  | .fn ps f body r =>
    .enter :: (calls ps ++ .leaveParams :: (nameCall f ++ .enterBody :: .enter :: (calls body ++ .leave :: .leaveBody :: calls r)))

end Slimcc.Scp
