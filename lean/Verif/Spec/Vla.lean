import Verif.Model.Vla
/-!
The storage of variable length arrays.
-/
set_option autoImplicit false
namespace Slimcc.Spec.Vla
open Slimcc.Vla

/-- The number of bytes of a variable length array. -/
def bytes : VTy → Int
  | .fixed s => s
  | .vla n _ _ b => n * bytes b

/-- Every size fits in `size_t`, numbers of elements are not negative and fit their type, and so does the number of bytes of the innermost
array in the type of its number of elements. -/
def Fits : VTy → Prop
  | .fixed _ => True
  | .vla n bits signed b => 0 ≤ n ∧ n * bytes b < 2 ^ 64 ∧ bits ≤ 64 ∧ 0 < bits ∧ n < 2 ^ (if signed then bits - 1 else bits) ∧ Fits b ∧
      (∀ s, b = .fixed s → n * s < 2 ^ (if signed then bits - 1 else bits))

/-- What is in scope, innermost first. -/
inductive Item where
  | vla (v : Nat) (sz al : Nat)
  | act (id : Nat)
  deriving DecidableEq, Repr

/-- How a history changes what is in scope. -/
def scope (l : List Item) : Ev → List Item
  | .vla v sz al => .vla v sz.toNat (max al 16) :: l
  | .defer i => .act i :: l
  | .leave k => l.drop (l.length - k)
  | .alloca _ => l

def scopes (l : List Item) : List Ev → List Item
  | [] => l
  | e :: es => scopes (scope l e) es

/-- The arrays in scope lie below `top`, each below those declared before it and aligned, at the addresses that
`slot` has for them, and `low` is not above the last. -/
inductive Stored (slot : Nat → Word) (top : Nat) : List Item → Nat → Prop where
  | nil (low : Nat) : low ≤ top → Stored slot top [] low
  | act (i : Nat) (l : List Item) (low : Nat) : Stored slot top l low → Stored slot top (.act i :: l) low
  | vla (v sz al : Nat) (l : List Item) (low : Nat) : Stored slot top l ((slot v).toNat + sz) → al ∣ (slot v).toNat →
      low ≤ (slot v).toNat → Stored slot top (.vla v sz al :: l) low

/-- The address of the innermost array in scope. -/
def innermost (slot : Nat → Word) (base : Word) : List Item → Word
  | [] => base
  | .act _ :: l => innermost slot base l
  | .vla v _ _ :: _ => slot v

/-- Deferred actions among the items. -/
def acts : List Item → List Nat
  | [] => []
  | .act i :: l => i :: acts l
  | .vla _ _ _ :: l => acts l

/-- Names declared. -/
def names : List Item → List Nat
  | [] => []
  | .act _ :: l => names l
  | .vla v _ _ :: l => v :: names l

/-- A history as a program can have it: a variable is not declared again while it is in scope, alignments are
powers of two, a scope is left for one around it, and the stack is large enough. -/
def Possible (dealloc : Bool) (x : Chain × St) (l : List Item) : List Ev → Prop
  | [] => True
  | e :: es =>
    (match e with
      | .vla v sz al => v ∉ names l ∧ (∃ k, k ≤ 31 ∧ al = 2 ^ k) ∧ sz.toNat + max al 16 ≤ x.2.rsp.toNat
      | .defer _ => True
      | .leave k => k ≤ l.length
      | .alloca sz => sz.toNat + 16 ≤ x.2.rsp.toNat) ∧
    Possible dealloc ((step dealloc x e).1, (step dealloc x e).2.1) (scope l e) es

end Slimcc.Spec.Vla
