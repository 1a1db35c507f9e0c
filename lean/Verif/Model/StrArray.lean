import Verif.Model.Basic
/-!
Model of `/repo/strings.c` `StringArray`.
`char *` is a natural number (0 = `NULL`). `calloc`/`realloc` never fail. Memory obtained from
`realloc` beyond the old capacity is indeterminate: the model takes its contents from a parameter.
-/
set_option autoImplicit false
namespace Slimcc.StrArray
open Slimcc

/-- slimcc.h `StringArray`; `data.length` is the number of allocated slots,
`data = []` models `data == NULL`. -/
structure Arr where
  data : List Nat
  capacity : Nat
  len : Nat
  deriving Repr, DecidableEq

def Arr.init : Arr := ⟨[], 0, 0⟩

/-- A store `data[i] = x`; out of bounds is `ub`. -/
def store (a : List Nat) (i x : Nat) : Outcome (List Nat) :=
  if i < a.length then .ok (a.set i x) else .ub

/-- The loop of strings.c:12-13: `for (i = from; i < from + n; i++) data[i] = NULL`. -/
def nullFill (a : List Nat) : Nat → Nat → Outcome (List Nat)
  | _, 0 => .ok a
  | i, n + 1 => match store a i 0 with
    | .ok a' => nullFill a' (i + 1) n
    | .error => .error
    | .ub => .ub

/-- strings.c:3-17 `strarray_push`; `junk` is the content of fresh `realloc` memory.
`int` overflow of the capacity is `ub`. -/
def push (junk : Nat → Nat) (a : Arr) (s : Nat) : Outcome Arr :=
  let a := if a.data.isEmpty then { a with data := List.replicate 8 0, capacity := 8 } else a
  if a.capacity * 2 > INT_MAX ∧ a.capacity = a.len then .ub else
  let a' : Outcome Arr :=
    if a.capacity = a.len then
      let grown := a.data ++ (List.range a.capacity).map junk
      match nullFill grown a.len (a.capacity * 2 - a.len) with
      | .ok d => .ok { a with data := d, capacity := a.capacity * 2 }
      | .error => .error
      | .ub => .ub
    else .ok a
  match a' with
  | .ok a => match store a.data a.len s with
    | .ok d => .ok { a with data := d, len := a.len + 1 }
    | .error => .error
    | .ub => .ub
  | .error => .error
  | .ub => .ub

/-- A sequence of pushes. -/
def pushAll (junk : Nat → Nat) : Arr → List Nat → Outcome Arr
  | a, [] => .ok a
  | a, s :: ss => match push junk a s with
    | .ok a' => pushAll junk a' ss
    | .error => .error
    | .ub => .ub

end Slimcc.StrArray
