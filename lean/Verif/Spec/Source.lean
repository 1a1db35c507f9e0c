/-!
Specifications for the source-text phases (C07, C08), on byte lists.
10 = LF, 13 = CR, 92 = backslash.
-/
set_option autoImplicit false
namespace Slimcc.Spec

/-- Each CR LF and each lone CR becomes one LF. -/
def crlf : List Nat → List Nat
  | [] => []
  | 13 :: 10 :: r => 10 :: crlf r
  | 13 :: r => 10 :: crlf r
  | c :: r => c :: crlf r

/-- Number of line ends in a file where CR LF, CR and LF all end a line. -/
def lineEnds : List Nat → Nat
  | [] => 0
  | 13 :: 10 :: r => lineEnds r + 1
  | 13 :: r => lineEnds r + 1
  | 10 :: r => lineEnds r + 1
  | _ :: r => lineEnds r

/-- Translation phase 2 of the C standard: every backslash immediately followed by a newline is
deleted, together with the newline. -/
def unsplice : List Nat → List Nat
  | [] => []
  | 92 :: 10 :: r => unsplice r
  | c :: r => c :: unsplice r

/-- Text without its newlines. -/
def noNewlines (t : List Nat) : List Nat := t.filter (· ≠ 10)

/-- Number of newlines. -/
def newlines (t : List Nat) : Nat := t.count 10

end Slimcc.Spec
