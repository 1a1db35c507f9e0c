import Verif.Model.PPNum
set_option autoImplicit false

/-!
Model of `#line` and of the numbers and names `__LINE__`, `__FILE__` and the debugging information use
(preprocess.c 1187-1209, 1228-1235, 1391-1399, 1486-1503; tokenize.c 836-843, 924-945, 646-656).

The preprocessor is seen as a sequence of events in the order in which it walks along the tokens: a file is
read, a line marker is found, the place of a token is asked for. `File` objects are found by their path, so a
path stands for the pointer.

Not modelled: macro expansion of the marker (`expand_tok`; the token of the number is given), the checks of
its syntax, and overflow of `int`: line numbers are unbounded.
-/

namespace Slimcc.LineNo

open Slimcc.PPNum

/-- slimcc.h 157-168 `File`: whether `contents` is there, `line_delta`, and the name of `display_file`. -/
structure File where
  loaded : Bool
  delta : Int
  display : String
  deriving DecidableEq, Repr

/-- tokenize.c 925, `input_files_map`. -/
abbrev Reg := String → Option File

/-- tokenize.c 924-945 `add_input_file`, with `new_file` (836-843): a known path gives the object there is. -/
def addInputFile (st : Reg) (path : String) (contents : Bool) : Reg :=
  match st path with
  | some _ => st
  | none => fun q => if q = path then some ⟨contents, 0, path⟩ else st q

/-- What the preprocessor meets. Lines are the `line_no` of a token. -/
inductive Event where
  /-- `tokenize_file` (947-966) is called for a path -/
  | enter (path : String)
  /-- a line marker whose first token is on that line: the text of its number and the file name -/
  | marker (path : String) (line : Nat) (num : List Nat) (name : Option String)
  /-- the place of a token (the one from which a macro was expanded, where there is one) -/
  | place (path : String) (line : Nat)

/-- preprocess.c 1192-1194: the number of a marker; it must be of kind `TY_INT`, which `unsigned` is too. -/
def markerNum (num : List Nat) : Option Int :=
  match convertPpNumber num [] with
  | .ok (.int v .int) => some v
  | .ok (.int v .uint) => some v
  | _ => none

/-- preprocess.c 1234 and 1499 (the line), 1233 and 1490 (the file). -/
def placeOf (f : File) (line : Nat) : Int × String := (line + f.delta, f.display)

/-- preprocess.c 1187-1209 `read_line_marker`. -/
def readLineMarker (st : Reg) (path : String) (line : Nat) (num : List Nat) (name : Option String) :
    Option Reg := do
  let val ← markerNum num
  let f ← st path
  let f := { f with delta := val - line - 1 }
  match name with
  | none => some fun q => if q = path then some f else st q
  | some x =>
    let st := addInputFile (fun q => if q = path then some f else st q) x false
    some fun q => if q = path then some { f with display := x } else st q

/-- The preprocessor along the events: the places in their order, `none` if it reports an error or reads
through a null pointer (tokenize.c 649-656 with no contents). -/
def run : Reg → List Event → Option (List (Int × String) × Reg)
  | st, [] => some ([], st)
  | st, .enter p :: es =>
    let st := addInputFile st p true
    match st p with
    | some f => if f.loaded then run st es else none
    | none => none
  | st, .marker p l n x :: es => do
    let st ← readLineMarker st p l n x
    run st es
  | st, .place p l :: es => do
    let f ← st p
    let (o, st) ← run st es
    some (placeOf f l :: o, st)

end Slimcc.LineNo
