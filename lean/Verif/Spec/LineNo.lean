import Verif.Spec.PPNum
import Verif.Model.LineNo
set_option autoImplicit false

/-!
What C says about presumed lines and file names (6.10.5 `#line`, 6.10.9.1 `__LINE__` and `__FILE__`).
-/

namespace Slimcc.LineNo

/-- A source file, from some line to its end, together with the files it includes. Every constructor is a
piece of the file which is `h` physical lines high. -/
inductive Src where
  | nil
  /-- text whose tokens are that many lines below its first line -/
  | text (tokens : List Nat) (h : Nat) (rest : Src)
  /-- `#line num` or `#line num "name"` -/
  | mark (h : Nat) (num : List Nat) (name : Option String) (rest : Src)
  /-- `#include` of the file of a path -/
  | incl (h : Nat) (path : String) (body rest : Src)

/-- A digit sequence without a leading zero, at most 2147483647, and its value. -/
def Plain (num : List Nat) (n : Nat) : Prop :=
  num ≠ [] ∧ (∀ d ∈ num, Spec.IsDigit d) ∧ num.head? ≠ some 48 ∧ num.length ≤ 10 ∧
  Spec.digitsValue 10 num = n ∧ n ≤ 2147483647

/-- **What C says**: the presumed line and file of every token, `cur` and `name` being those of the current
line. A marker changes them from the next line on, until the end of the file it is in; an included file
begins with line 1 of its own name. -/
inductive Presumed : Int → String → Src → List (Int × String) → Prop
  | nil (cur : Int) (name : String) : Presumed cur name .nil []
  | text (cur : Int) (name : String) (ts : List Nat) (h : Nat) (s : Src) (o : List (Int × String)) :
      Presumed (cur + h) name s o →
      Presumed cur name (.text ts h s) (ts.map (fun (k : Nat) => (cur + k, name)) ++ o)
  | mark (cur : Int) (name : String) (h : Nat) (num : List Nat) (n : Nat) (x : Option String) (s : Src)
      (o : List (Int × String)) :
      Plain num n → Presumed n (x.getD name) s o → Presumed cur name (.mark h num x s) o
  | incl (cur : Int) (name : String) (h : Nat) (path : String) (b s : Src) (o1 o2 : List (Int × String)) :
      Presumed 1 path b o1 → Presumed (cur + h) name s o2 → Presumed cur name (.incl h path b s) (o1 ++ o2)

/-- The events of a file from a physical line on: its tokens in order, those of an included file in place of
the directive. -/
def events (p : String) : Nat → Src → List Event
  | _, .nil => []
  | l, .text ts h s => ts.map (fun k => .place p (l + k)) ++ events p (l + h) s
  | l, .mark h num x s => .marker p l num x :: events p (l + h) s
  | l, .incl h q b s => .enter q :: (events q 1 b ++ events p (l + h) s)

/-- The paths of the files included, each as often as it is. -/
def included : Src → List String
  | .nil => []
  | .text _ _ s => included s
  | .mark _ _ _ s => included s
  | .incl _ q b s => q :: (included b ++ included s)

/-- The markers: the file each is in, its height, and the name it gives. -/
def marks (p : String) : Src → List (String × Nat × Option String)
  | .nil => []
  | .text _ _ s => marks p s
  | .mark h _ x s => (p, h, x) :: marks p s
  | .incl _ q b s => marks q b ++ marks p s

end Slimcc.LineNo
