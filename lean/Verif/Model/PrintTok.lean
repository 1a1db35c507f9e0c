import Verif.Model.Lex
import Verif.Model.Source
/-!
Model of the output of `-E`, main.c:639-669, and of how a file is read again.
-/
set_option autoImplicit false
namespace Slimcc.PrintTok
open Slimcc Slimcc.Lex

/-- The fields of a token that `print_tokens` uses, with its kind and value. `file` and `line` are those of
the token or of the one it came from (`tok->origin`, main.c:647). -/
structure PTok where
  kind : Kind
  val : Val
  text : List Nat
  atBol : Bool
  hasSpace : Bool
  file : Nat
  line : Nat
  deriving DecidableEq, Repr

/-- Decimal digits (`%d` of a number that is not negative). -/
def decimal : Nat → Nat → List Nat
  | 0, _ => []
  | f + 1, n => (if n < 10 then [] else decimal f (n / 10)) ++ [48 + n % 10]

/-- main.c:653: a line `# line "name"`. `name` gives the name to show for a file (`<stdin>` for `-`). -/
def marker (name : Nat → List Nat) (t : PTok) : List Nat :=
  [10, 35, 32] ++ decimal (t.line + 1) t.line ++ [32, 34] ++ name t.file ++ [34, 10]

/-- main.c:646-662: the loop of `print_tokens`. `first` is `line <= 1` (the counter is an `int`; more than
2^31 tokens are not considered); `cur` is `markerfile`; `optP` is `-P`. -/
def printLoop (optP : Bool) (name : Nat → List Nat) : (first : Bool) → (cur : Option Nat) → List PTok → List Nat
  | _, _, [] => []
  | first, cur, t :: ts =>
    let mark := !optP && cur != some t.file
    (if mark then marker name t else []) ++
    (if !first && t.atBol then [10] else []) ++
    (if t.hasSpace && !t.atBol then [32] else []) ++
    t.text ++
    printLoop optP name false (if mark then some t.file else cur) ts

/-- main.c:640-669 `print_tokens`; the list is without the end-of-file token. -/
def printTokens (optP : Bool) (name : Nat → List Nat) (ts : List PTok) : List Nat :=
  printLoop optP name true none ts ++ [10]

/-- tokenize.c:955-956: a byte order mark at the beginning is skipped. (`memcmp` on a buffer of less than
three bytes is taken as a difference.) -/
def skipBom : List Nat → List Nat
  | 239 :: 187 :: 191 :: m => m
  | m => m

/-- tokenize.c:947-966 `tokenize_file` on the contents of a file, without the optional
`convert_universal_chars`: byte order mark, newlines, splices, tokens. -/
def readSource (mem : List Nat) : Outcome (List Tok) :=
  match Source.canonicalizeNewline (skipBom mem) with
  | .ok m =>
    match Source.removeBackslashNewline m with
    | .ok m => tokenize false m
    | .error => .error
    | .ub => .ub
  | .error => .error
  | .ub => .ub

/-- The tokens of a file as `print_tokens` sees them, when the preprocessor has nothing to do. -/
def ofFile (s : List Nat) (file : Nat) (ts : List Tok) : List PTok :=
  (ts.filter (·.kind ≠ .eof)).map fun t =>
    ⟨t.kind, t.val, (s.drop t.loc).take t.len, t.atBol, t.hasSpace, file, t.lineNo⟩

end Slimcc.PrintTok
