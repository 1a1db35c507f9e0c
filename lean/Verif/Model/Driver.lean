import Verif.Model.Basic
/-!
Model of parts of the driver (main.c) and of the search for include files (preprocess.c:984-1028). Strings are lists of
bytes other than 0.
-/
set_option autoImplicit false
namespace Slimcc.Driver
open Slimcc

abbrev Str := List Nat

/-! ### Include directories -/

/-- main.c:118-119: `len` goes down from the length of the string. -/
def trimLen (path : Str) : Nat → Nat
  | 0 => 0
  | len + 1 => if len + 1 > 1 ∧ path[len]? = some 47 then trimLen path len else len + 1

/-- main.c:114-131 `add_include_path`. -/
def addInclude (arr : List Str) (path : Str) : List Str :=
  let len := trimLen path path.length
  if arr.any (fun s2 => s2.take len == path.take len && s2.length == len) then arr
  else arr ++ [path.take len]

/-- main.c:261-273, 531-550: `-I`, `-isystem` and `-idirafter` in the order they are given (each option has a list of
its own), and the directories of `platform_stdinc_paths`, none of them with `-nostdinc`. -/
def includePaths (user sys after std : List Str) : List Str :=
  let incl := user.foldl addInclude []
  let aft := after.foldl addInclude []
  let sys := aft.foldl addInclude (std.foldl addInclude (sys.foldl addInclude []))
  incl.filter (fun p => !sys.any (fun q => q == p)) ++ sys

/-- The cache of `search_include_paths3`, a map (hashmap.c). -/
abbrev Cache := List (Str × Str)

def Cache.get (c : Cache) (name : Str) : Option Str :=
  match c with
  | [] => none
  | (n, p) :: c => if n = name then some p else Cache.get c name

/-- preprocess.c:993-1002: the loop from directory `i` on. -/
def findIn (there : Str → Bool) (name : Str) : Nat → List Str → Option (Str × Nat)
  | _, [] => none
  | i, d :: ds => if there (d ++ [47] ++ name) then some (d ++ [47] ++ name, i) else findIn there name (i + 1) ds

/-- preprocess.c:984-1004 `search_include_paths3`: the path, the value of `*incl_no`, which is -1 at first (1262), and
the cache. -/
def searchPaths (there : Str → Bool) (dirs : List Str) (c : Cache) (name : Str) : Option Str × Int × Cache :=
  if name[0]? = some 47 then (some name, -1, c)
  else match c.get name with
  | some p => (some p, -1, c)
  | none => match findIn there name 0 dirs with
    | some (p, i) => (some p, i, (name, p) :: c)
    | none => (none, -1, c)

/-- preprocess.c:1020-1027 `search_include_next`, with the directories from `*idx` on. -/
def searchNext (there : Str → Bool) (cur name : Str) : List Str → Option Str
  | [] => none
  | d :: ds => if there (d ++ [47] ++ name) ∧ d ++ [47] ++ name ≠ cur then some (d ++ [47] ++ name) else searchNext there cur name ds

/-- preprocess.c:1271-1273: `#include_next` in the file `cur` whose `incl_no` is `no`. -/
def includeNext (there : Str → Bool) (dirs : List Str) (no : Int) (cur name : Str) : Option Str :=
  searchNext there cur name (dirs.drop (no + 1).toNat)

/-! ### Quoting for make -/

/-- `buf[j++] = c` on a buffer of `cap` bytes. -/
def put (cap : Nat) (buf : Str) (c : Nat) : Outcome Str := if buf.length < cap then .ok (buf ++ [c]) else .ub

/-- main.c:205-206, `n` times. -/
def putSlashes (cap : Nat) : Nat → Str → Outcome Str
  | 0, buf => .ok buf
  | n + 1, buf => do
    let buf ← put cap buf 92
    putSlashes cap n buf

/-- main.c:193-214, from a position of `s`; `pre` is the part before it, backwards. -/
def quoteFrom (cap : Nat) (pre : Str) (buf : Str) : Str → Outcome Str
  | [] => .ok buf
  | c :: r =>
    if c = 36 then do
      let buf ← put cap buf 36
      let buf ← put cap buf 36
      quoteFrom cap (c :: pre) buf r
    else if c = 35 then do
      let buf ← put cap buf 92
      let buf ← put cap buf 35
      quoteFrom cap (c :: pre) buf r
    else if c = 32 ∨ c = 9 then do
      let buf ← putSlashes cap (pre.takeWhile (· == 92)).length buf
      let buf ← put cap buf 92
      let buf ← put cap buf c
      quoteFrom cap (c :: pre) buf r
    else do
      let buf ← put cap buf c
      quoteFrom cap (c :: pre) buf r

/-- main.c:190-216 `quote_makefile`: the string in the buffer, which was filled with zeros. Without room for a
terminating zero its value is undefined. -/
def quoteMakefile (s : Str) : Outcome Str :=
  match quoteFrom (s.length * 2 + 1) [] [] s with
  | .ok buf => if buf.length < s.length * 2 + 1 then .ok buf else .ub
  | .error => .error
  | .ub => .ub

/-- main.c:703-708: what `print_dependencies` writes for a prerequisite. -/
def prerequisite (name : Str) : Str := [32, 92, 10, 32, 32] ++ name

/-! ### Files -/

/-- main.c:565-569 `endswith`. -/
def endsWith (p q : Str) : Bool := decide (p.length ≥ q.length) && p.drop (p.length - q.length) == q

/-- `basename` of libgen.h (POSIX). -/
def baseName (s : Str) : Str :=
  let t := (s.reverse.dropWhile (· == 47)).reverse
  if s = [] then [46]
  else if t = [] then [47]
  else (t.reverse.takeWhile (· != 47)).reverse

/-- `strrchr(s, '.')`: the part before the last dot. -/
def cutDot (s : Str) : Str :=
  if s.contains 46 then ((s.reverse.dropWhile (· != 46)).drop 1).reverse else s

/-- main.c:572-578 `replace_extn`. -/
def replaceExtn (tmpl extn : Str) : Str := cutDot (baseName tmpl) ++ extn

/-- main.c:3-5 `FileType`, without `FILE_NONE`. -/
inductive FileType where
  | c | asm | obj | ar | dso | ppAsm
  deriving DecidableEq, Repr

def isDigit (c : Nat) : Bool := decide (48 ≤ c) && decide (c ≤ 57)

/-- `Isdigit(*s)` -/
def startsDigit : Str → Bool
  | d :: _ => isDigit d
  | [] => false

/-- main.c:1028-1029: the loop; what is left. -/
def skipVersion : Str → Str
  | [] => []
  | c :: r => if isDigit c || (c == 46 && startsDigit r) then skipVersion r else c :: r

/-- `strstr`: the rest of the first string from the first occurrence of the second. -/
def strstr (s q : Str) : Option Str :=
  match s with
  | [] => if q = [] then some [] else none
  | c :: r => if q.isPrefixOf (c :: r) then some (c :: r) else strstr r q

/-- main.c:1008-1035 `get_file_type`; `none` is the error. -/
def fileType (optE : Bool) (s : Str) : Option FileType :=
  if endsWith s [46, 97] then some .ar
  else if endsWith s [46, 115, 111] then some .dso
  else if endsWith s [46, 111] || endsWith s [46, 108, 111] then some .obj
  else if endsWith s [46, 99] then some .c
  else if endsWith s [46, 115] then some .asm
  else if endsWith s [46, 83] then some .ppAsm
  else if optE && (s == [45] || endsWith s [46, 104]) then some .c
  else match strstr s [46, 115, 111, 46] with
  | some p => if skipVersion (p.drop 3) = [] then some .dso else none
  | none => none

/-- main.c:133-143 `parse_opt_x`: the inner `none` is `FILE_NONE`, the outer one the error. -/
def parseX (s : Str) : Option (Option FileType) :=
  if s = [99] then some (some .c)
  else if s = [97, 115, 115, 101, 109, 98, 108, 101, 114] then some (some .asm)
  else if s = [97, 115, 115, 101, 109, 98, 108, 101, 114, 45, 119, 105, 116, 104, 45, 99, 112, 112] then some (some .ppAsm)
  else if s = [110, 111, 110, 101] then some none
  else none

/-- The options the loop of `main` depends on. -/
structure Opts where
  E : Bool
  M : Bool
  S : Bool
  c : Bool
  o : Option Str

/-- A file: named by the user, the standard output, or a temporary one. -/
inductive Out where
  | path (s : Str)
  | stdout
  | tmp (n : Nat)
  deriving DecidableEq

/-- The programs that are run: the compiler proper (`run_cc1`) and the assembler. -/
inductive Act where
  | cc1 (input : Str) (output : Out) (asmPp : Bool)
  | as (input : Out) (output : Out)
  deriving DecidableEq

/-- main.c:1060-1153: one input of a given type. `n` temporary files have been made. What is run, what is added to the
arguments of the linker, and the number of temporary files. -/
def oneInput (op : Opts) (n : Nat) (input : Str) (ty : FileType) : List Act × List Out × Nat :=
  let output : Out := .path (match op.o with | some o => o | none => if op.S then replaceExtn input [46, 115] else replaceExtn input [46, 111])
  let direct : Out := match op.o with | some o => .path o | none => .stdout
  match ty with
  | .obj | .ar | .dso => ([], [.path input], n)
  | .asm =>
    if op.S || op.E || op.M then ([], [], n)
    else if op.c then ([.as (.path input) output], [], n)
    else ([.as (.path input) (.tmp n)], [.tmp n], n + 1)
  | .ppAsm =>
    if op.S || op.E || op.M then ([.cc1 input direct true], [], n)
    else if op.c then ([.cc1 input (.tmp n) true, .as (.tmp n) output], [], n + 1)
    else ([.cc1 input (.tmp n) true, .as (.tmp n) (.tmp (n + 1))], [.tmp (n + 1)], n + 2)
  | .c =>
    if op.E || op.M then ([.cc1 input direct false], [], n)
    else if op.S then ([.cc1 input output false], [], n)
    else if op.c then ([.cc1 input (.tmp n) false, .as (.tmp n) output], [], n + 1)
    else ([.cc1 input (.tmp n) false, .as (.tmp n) (.tmp (n + 1))], [.tmp (n + 1)], n + 2)

/-- main.c:1053-1154: the loop of `main` over `input_paths`, in which a `-x` is followed by its argument. `none` is an
error. -/
def inputs (op : Opts) : Option FileType → Nat → List Str → Option (List Act × List Out)
  | _, _, [] => some ([], [])
  | x, n, s :: r =>
    if s = [45, 120] then
      match r with
      | [] => none
      | l :: r => match parseX l with
        | none => none
        | some x => inputs op x n r
    else match (match x with | some t => some t | none => fileType op.E s) with
      | none => none
      | some t =>
        let (acts, lds, m) := oneInput op n s t
        match inputs op x m r with
        | none => none
        | some (acts', lds') => some (acts ++ acts', lds ++ lds')

end Slimcc.Driver
