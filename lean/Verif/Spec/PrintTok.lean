import Verif.Model.PrintTok
import Verif.Spec.Lex
/-! What the output of `-E` should be read as. -/
set_option autoImplicit false
namespace Slimcc.Spec
open Slimcc Slimcc.Lex

/-- What matters of a token: kind, value, spelling, whether it is the first of its line, and whether there is
white space before it. -/
structure View where
  kind : Kind
  val : Val
  text : List Nat
  bol : Bool
  space : Bool
  deriving DecidableEq, Repr

/-- The tokens of a text. -/
def views (s : List Nat) (ts : List Tok) : List View :=
  ts.map fun t => ⟨t.kind, t.val, (s.drop t.loc).take t.len, t.atBol, t.hasSpace⟩

/-- White space at the beginning of a line is not kept. -/
def View.unindent (v : View) : View := { v with space := v.space && !v.bol }

/-- The end of the text. -/
def View.eof : View := ⟨.eof, .none, [], true, false⟩

/-- The spellings that come directly after one another, up to the first token with white space before it. -/
def joined : List PrintTok.PTok → List Nat
  | [] => []
  | t :: ts => if t.atBol || t.hasSpace then [] else t.text ++ joined ts

/-- Every token is one when it is followed by what is printed directly after it (and by something). -/
def Readable : List PrintTok.PTok → Prop
  | [] => True
  | t :: ts => (∃ r, TokenText t.kind t.val t.text (joined ts ++ r)) ∧ Readable ts

/-- A token as printed: white space at the beginning of a line is not kept. `bol`: something else has put it
at the beginning of a line. -/
def shown (bol : Bool) (t : PrintTok.PTok) : View :=
  ⟨t.kind, t.val, t.text, bol || t.atBol, t.hasSpace && !t.atBol⟩

/-- The line `# 12 "name"` for a token of line 12 of a file. -/
def lineMarker (name : Nat → List Nat) (t : PrintTok.PTok) : List View :=
  [⟨.punct, .none, chars ['#'], true, false⟩,
   ⟨.ppNum, .none, chars (Nat.toDigits 10 t.line), false, true⟩,
   ⟨.str, .str .narrow (name t.file), chars ['"'] ++ name t.file ++ chars ['"'], false, true⟩]

/-- What the output is read as with line markers: one whenever the file changes. -/
def markedFrom (name : Nat → List Nat) : Option Nat → List PrintTok.PTok → List View
  | _, [] => []
  | cur, t :: ts =>
    if cur = some t.file then shown false t :: markedFrom name cur ts
    else lineMarker name t ++ shown true t :: markedFrom name (some t.file) ts

/-- What the output is read as: the tokens, with `-P` alone, otherwise with line markers. -/
def printed (optP : Bool) (name : Nat → List Nat) (ts : List PrintTok.PTok) : List View :=
  (if optP then
    match ts with
    | [] => []
    | t :: ts => shown true t :: ts.map (shown false)
   else markedFrom name none ts) ++ [View.eof]

/-- A name that can stand between quotes as it is. -/
def PlainName (x : List Nat) : Prop := ∀ b ∈ x, b ≠ 34 ∧ b ≠ 92 ∧ b ≠ 10 ∧ b < 256

end Slimcc.Spec
