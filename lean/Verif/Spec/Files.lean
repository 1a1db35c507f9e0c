import Verif.Model.Driver
/-!
File names and inputs of the driver.
-/
set_option autoImplicit false
namespace Slimcc.Spec
open Slimcc.Driver

def str (s : String) : Str := s.toList.map Char.toNat

/-- The extensions. -/
def extensions : List (String × FileType) :=
  [("a", .ar), ("so", .dso), ("o", .obj), ("lo", .obj), ("c", .c), ("s", .asm), ("S", .ppAsm)]

/-- The languages of `-x`; `none` goes back to the extension. -/
def languages : List (String × Option FileType) :=
  [("c", some .c), ("assembler", some .asm), ("assembler-with-cpp", some .ppAsm), ("none", none)]

/-- The number of a version, such as `.1.20`. -/
inductive Version : Str → Prop where
  | last (ds : Str) : ds ≠ [] → (∀ d ∈ ds, 48 ≤ d ∧ d ≤ 57) → Version (46 :: ds)
  | more (ds v : Str) : ds ≠ [] → (∀ d ∈ ds, 48 ≤ d ∧ d ≤ 57) → Version v → Version (46 :: (ds ++ v))

/-- The inputs on the command line: `-x` with its argument, and files. -/
inductive Item where
  | x (lang : Str)
  | file (s : Str)

def Item.isFile : Item → Bool
  | .file _ => true
  | .x _ => false

def itemStrs : List Item → List Str
  | [] => []
  | .x l :: r => str "-x" :: l :: itemStrs r
  | .file s :: r => s :: itemStrs r

/-- After `pre`, the last `-x` names the language. -/
def LastX (pre : List Item) (t : Option FileType) : Prop :=
  (∃ a l b, pre = a ++ .x (str l) :: b ∧ (∀ i ∈ b, i.isFile = true) ∧ (l, t) ∈ languages) ∨ ((∀ i ∈ pre, i.isFile = true) ∧ t = none)

/-- The files that are linked for the inputs, and how they are made; `acts` are all the programs that are run. -/
inductive Links (E : Bool) (acts : List Act) : List Item → List Item → List Out → Prop where
  | nil (pre : List Item) : Links E acts pre [] []
  | x (pre : List Item) (l : Str) (r : List Item) (o : List Out) : Links E acts (pre ++ [.x l]) r o → Links E acts pre (.x l :: r) o
  | file (pre : List Item) (s : Str) (x : Option FileType) (ty : FileType) (r : List Item) (f : Out) (o : List Out) : LastX pre x →
      (x = some ty ∨ x = none ∧ fileType E s = some ty) →
      (((ty = .obj ∨ ty = .ar ∨ ty = .dso) ∧ f = .path s) ∨
       (ty = .asm ∧ ∃ n, f = .tmp n ∧ .as (.path s) f ∈ acts) ∨
       ((ty = .c ∨ ty = .ppAsm) ∧ ∃ n m, f = .tmp n ∧ .cc1 s (.tmp m) (ty == .ppAsm) ∈ acts ∧ .as (.tmp m) f ∈ acts)) →
      Links E acts (pre ++ [.file s]) r o → Links E acts pre (.file s :: r) (f :: o)

/-- Where an option makes the compiler stop. -/
inductive Stage where
  | preprocess | compile | assemble
  deriving DecidableEq

/-- The earliest of the stages asked for. -/
def stageOf (E M S c : Bool) : Option Stage :=
  if E || M then some .preprocess else if S then some .compile else if c then some .assemble else none

/-- The file named with `-o`, or else another one. -/
def orElse (o : Option Str) (d : Out) : Out :=
  match o with
  | some o => .path o
  | none => d

/-- What is run for the input `s`, and where the result goes. Assembler is left alone unless it is to be assembled,
and assembler that needs preprocessing is only preprocessed. -/
def Made (o : Option Str) (acts : List Act) (s : Str) : Stage → FileType → Prop
  | .preprocess, .c => .cc1 s (orElse o .stdout) false ∈ acts
  | .preprocess, .ppAsm => .cc1 s (orElse o .stdout) true ∈ acts
  | .compile, .c => .cc1 s (orElse o (.path (replaceExtn s (str ".s")))) false ∈ acts
  | .compile, .ppAsm => .cc1 s (orElse o .stdout) true ∈ acts
  | .assemble, .c => ∃ n, .cc1 s (.tmp n) false ∈ acts ∧ .as (.tmp n) (orElse o (.path (replaceExtn s (str ".o")))) ∈ acts
  | .assemble, .ppAsm => ∃ n, .cc1 s (.tmp n) true ∈ acts ∧ .as (.tmp n) (orElse o (.path (replaceExtn s (str ".o")))) ∈ acts
  | .assemble, .asm => .as (.path s) (orElse o (.path (replaceExtn s (str ".o")))) ∈ acts
  | _, _ => True

/-- Every input is brought to its stage; only object files and libraries are left for the linker. -/
inductive Stops (E : Bool) (o : Option Str) (st : Stage) (acts : List Act) : List Item → List Item → List Out → Prop where
  | nil (pre : List Item) : Stops E o st acts pre [] []
  | x (pre : List Item) (l : Str) (r : List Item) (f : List Out) : Stops E o st acts (pre ++ [.x l]) r f → Stops E o st acts pre (.x l :: r) f
  | file (pre : List Item) (s : Str) (x : Option FileType) (ty : FileType) (r : List Item) (f f' : List Out) : LastX pre x →
      (x = some ty ∨ x = none ∧ fileType E s = some ty) → Made o acts s st ty →
      (if ty = .obj ∨ ty = .ar ∨ ty = .dso then f' = .path s :: f else f' = f) →
      Stops E o st acts (pre ++ [.file s]) r f → Stops E o st acts pre (.file s :: r) f'

end Slimcc.Spec
