/-!
Lists of directories.
-/
set_option autoImplicit false
namespace Slimcc.Spec

/-- The first occurrences, in order. -/
def firsts : List (List Nat) → List (List Nat)
  | [] => []
  | x :: l => x :: (firsts l).filter (fun y => y != x)

/-- `y` does not occur. -/
def notIn (l : List (List Nat)) (y : List Nat) : Bool := !l.contains y

/-- `d` is the path without the slashes at its end; one character is left. -/
def Trimmed (path d : List Nat) : Prop :=
  (∃ n, path = d ++ List.replicate n 47) ∧ (path ≠ [] → d ≠ []) ∧ (d.getLast? = some 47 → d.length = 1)

/-- The file of the name in the first directory that has one, and the number of the directory. -/
def FirstIn (there : List Nat → Bool) (name : List Nat) (dirs : List (List Nat)) (r : Option (List Nat × Nat)) : Prop :=
  (∃ before d after, dirs = before ++ d :: after ∧ there (d ++ [47] ++ name) = true ∧ (∀ x ∈ before, there (x ++ [47] ++ name) = false) ∧
    r = some (d ++ [47] ++ name, before.length)) ∨
  (∀ x ∈ dirs, there (x ++ [47] ++ name) = false) ∧ r = none

end Slimcc.Spec
