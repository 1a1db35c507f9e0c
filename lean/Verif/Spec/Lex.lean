import Verif.Model.Lex
import Verif.Spec.Unicode
/-!
Specifications for the tokenizer properties (C09-C13), written from the C standard.
Texts are lists of bytes.
-/
set_option autoImplicit false
namespace Slimcc.Spec

/-- A text given by characters, as bytes. -/
def chars (cs : List Char) : List Nat := cs.map Char.toNat

/-- The punctuators of C23 6.4.6 except the digraphs (`<:` `:>` `<%` `%>` `%:` `%:%:`) and the
attribute token `::` (which C23 lists; the code reads it as two `:`), plus the three bytes
`@`, `\` and `` ` `` that this preprocessor also passes through as one-byte tokens. -/
def punctuators : List (List Nat) :=
  [['['], [']'], ['('], [')'], ['{'], ['}'], ['.'], ['-','>'], ['+','+'], ['-','-'], ['&'], ['*'],
   ['+'], ['-'], ['~'], ['!'], ['/'], ['%'], ['<','<'], ['>','>'], ['<'], ['>'], ['<','='],
   ['>','='], ['=','='], ['!','='], ['^'], ['|'], ['&','&'], ['|','|'], ['?'], [':'], [';'],
   ['.','.','.'], ['='], ['*','='], ['/','='], ['%','='], ['+','='], ['-','='], ['<','<','='],
   ['>','>','='], ['&','='], ['^','='], ['|','='], [','], ['#'], ['#','#'],
   ['@'], ['\\'], ['`']].map chars

/-- The digraphs of C 6.4.6 and `::`. -/
def unsupportedPunctuators : List (List Nat) :=
  [['<',':'], [':','>'], ['<','%'], ['%','>'], ['%',':'], ['%',':','%',':'], [':',':']].map chars

/-- `n` is the length of the longest element of `ps` that is a prefix of the text, 0 if none is. -/
def IsLongest (ps : List (List Nat)) (text : List Nat) (n : Nat) : Prop :=
  (n = 0 ∨ ∃ q ∈ ps, q <+: text ∧ q.length = n) ∧ ∀ q ∈ ps, q <+: text → q.length ≤ n

/-! ## Lexical grammar (for C source, i.e. not in assembler mode)

`Layout` below is the specification of tokenisation: a declarative reading of a text as a sequence
of white space, comments and tokens. It uses the token record of the model (`Lex.Tok`) only as a
data type, and the identifier tables of C06.
Where the implementation is more liberal than C, the grammar is too, and says so. -/

open Lex (Kind Val Tok StrEnc CharTy)

/-- A UTF-8 continuation byte. -/
def Cont (b : Nat) : Prop := 128 ≤ b ∧ b < 192

/-- The bytes `bs` are read as the code point `c`. Liberal: overlong forms, surrogates and lead
bytes F8-FF are accepted (see C04). -/
def LooseUtf8 (c : Nat) (bs : List Nat) : Prop :=
  (∃ b, bs = [b] ∧ b < 128 ∧ c = b) ∨
  (∃ b1 b2, bs = [b1, b2] ∧ 192 ≤ b1 ∧ b1 < 224 ∧ Cont b2 ∧ c = b1 % 32 * 64 + b2 % 64) ∨
  (∃ b1 b2 b3, bs = [b1, b2, b3] ∧ 224 ≤ b1 ∧ b1 < 240 ∧ Cont b2 ∧ Cont b3 ∧
    c = (b1 % 16 * 64 + b2 % 64) * 64 + b3 % 64) ∨
  (∃ b1 b2 b3 b4, bs = [b1, b2, b3, b4] ∧ 240 ≤ b1 ∧ Cont b2 ∧ Cont b3 ∧ Cont b4 ∧
    c = ((b1 % 8 * 64 + b2 % 64) * 64 + b3 % 64) * 64 + b4 % 64)

def IsDigit (c : Nat) : Prop := 48 ≤ c ∧ c ≤ 57
def IsLetter (c : Nat) : Prop := (65 ≤ c ∧ c ≤ 90) ∨ (97 ≤ c ∧ c ≤ 122)
def IsOctal (c : Nat) : Prop := 48 ≤ c ∧ c ≤ 55
def IsHex (c : Nat) : Prop := IsDigit c ∨ (97 ≤ c ∧ c ≤ 102) ∨ (65 ≤ c ∧ c ≤ 70)
/-- ASCII characters of identifiers; `$` is accepted as an extension. -/
def IsIdAscii (c : Nat) : Prop := IsLetter c ∨ IsDigit c ∨ c = 95 ∨ c = 36
/-- Value of a hexadecimal digit. -/
def hexDigit (c : Nat) : Nat := if c ≤ 57 then c - 48 else if c ≤ 70 then c - 55 else c - 87
/-- Value of a list of hexadecimal digits, most significant first. -/
def hexValue (ds : List Nat) : Nat := ds.foldl (fun v d => v * 16 + hexDigit d) 0

/-- The text begins with a byte satisfying `P`. -/
def StartsWith (P : Nat → Prop) (t : List Nat) : Prop := ∃ b r, t = b :: r ∧ P b

/-- Non-ASCII identifier characters (C23 D.1 / D.2 as tabulated by the project). -/
def IsIdUni (first : Bool) (c : Nat) : Prop :=
  InIntervals Unicode.ident1Table c ∨ (first = false ∧ InIntervals Unicode.ident2Table c)

/-- The text after an identifier or number does not continue it with a non-ASCII character. -/
def NoUni (first : Bool) (rest : List Nat) : Prop :=
  StartsWith (128 ≤ ·) rest → ∃ c bs r, rest = bs ++ r ∧ LooseUtf8 c bs ∧ ¬ IsIdUni first c

/-- `IdentRun first x rest`: `x` is a maximal run of identifier characters, followed by `rest`. -/
inductive IdentRun : Bool → List Nat → List Nat → Prop
  | stop (first : Bool) (rest : List Nat) : ¬ StartsWith IsIdAscii rest → NoUni first rest →
      IdentRun first [] rest
  | ascii (first : Bool) (c : Nat) (x rest : List Nat) : IsIdAscii c → IdentRun false x rest →
      IdentRun first (c :: x) rest
  | uni (first : Bool) (c : Nat) (bs x rest : List Nat) : LooseUtf8 c bs → 2 ≤ bs.length →
      IsIdUni first c → IdentRun false x rest → IdentRun first (bs ++ x) rest

def IsExp (c : Nat) : Prop := c = 101 ∨ c = 69 ∨ c = 112 ∨ c = 80
def IsSign (c : Nat) : Prop := c = 43 ∨ c = 45

/-- The continuation of a pp-number (C23 6.4.8), maximal: `rest` does not continue it. -/
inductive PpRun : List Nat → List Nat → Prop
  | stop (rest : List Nat) : ¬ StartsWith IsIdAscii rest → ¬ StartsWith (· = 46) rest →
      (∀ r, rest = 39 :: r → ¬ StartsWith (fun c => IsLetter c ∨ IsDigit c) r) → NoUni false rest →
      PpRun [] rest
  | dot (x rest : List Nat) : PpRun x rest → PpRun (46 :: x) rest
  | sep (c : Nat) (x rest : List Nat) : IsLetter c ∨ IsDigit c → PpRun x rest →
      PpRun (39 :: c :: x) rest
  | exp (e s : Nat) (x rest : List Nat) : IsExp e → IsSign s → PpRun x rest →
      PpRun (e :: s :: x) rest
  | ascii (c : Nat) (x rest : List Nat) : IsIdAscii c →
      ¬ (IsExp c ∧ StartsWith IsSign (x ++ rest)) → PpRun x rest → PpRun (c :: x) rest
  | uni (c : Nat) (bs x rest : List Nat) : LooseUtf8 c bs → 2 ≤ bs.length → IsIdUni false c →
      PpRun x rest → PpRun (bs ++ x) rest

/-- Single-character escapes of C 6.4.4.4 (and GNU `\e`). -/
def simpleEscapes : List (Nat × Nat) :=
  [('a', 7), ('b', 8), ('t', 9), ('n', 10), ('v', 11), ('f', 12), ('r', 13), ('e', 27)].map
    fun (c, v) => (Char.toNat c, v)

/-- `Esc v x rest`: after a backslash, the text `x`, followed by `rest`, is an escape with the
(32-bit) value `v`. Any other character stands for itself (as a signed char). -/
inductive Esc : Nat → List Nat → List Nat → Prop
  | oct1 (a : Nat) (rest : List Nat) : IsOctal a → ¬ StartsWith IsOctal rest →
      Esc (a - 48) [a] rest
  | oct2 (a b : Nat) (rest : List Nat) : IsOctal a → IsOctal b → ¬ StartsWith IsOctal rest →
      Esc ((a - 48) * 8 + (b - 48)) [a, b] rest
  | oct3 (a b c : Nat) (rest : List Nat) : IsOctal a → IsOctal b → IsOctal c →
      Esc ((a - 48) * 64 + (b - 48) * 8 + (c - 48)) [a, b, c] rest
  | hex (ds rest : List Nat) : ds ≠ [] → (∀ d ∈ ds, IsHex d) → ¬ StartsWith IsHex rest →
      Esc (hexValue ds % 2 ^ 32) (120 :: ds) rest
  | simple (b v : Nat) (rest : List Nat) : (b, v) ∈ simpleEscapes → Esc v [b] rest
  | self (b : Nat) (rest : List Nat) : ¬ IsOctal b → b ≠ 120 → (∀ v, (b, v) ∉ simpleEscapes) →
      Esc (if b < 128 then b else 2 ^ 32 - 256 + b) [b] rest

/-- UTF-16 units of a code point; above 10FFFF (not Unicode) the high bits are lost. -/
def looseUtf16 (c : Nat) : List Nat :=
  if c < 0x10000 then [c]
  else [0xD800 + (c - 0x10000) / 1024 % 1024, 0xDC00 + (c - 0x10000) % 1024]

/-- The array elements one source character contributes. -/
def Units : StrEnc → List Nat → List Nat → Prop
  | .narrow, bs, us => ∃ b, bs = [b] ∧ us = [b % 256]
  | .utf16, bs, us => ∃ c, LooseUtf8 c bs ∧ us = looseUtf16 c
  | .wide, bs, us => ∃ c, LooseUtf8 c bs ∧ us = [c]
  | .utf32, bs, us => ∃ c, LooseUtf8 c bs ∧ us = [c]

/-- Number of bits of an element. -/
def elemBits : StrEnc → Nat
  | .narrow => 8
  | .utf16 => 16
  | .wide => 32
  | .utf32 => 32

/-- `StrBody e t us`: the text `t` between the quotes denotes the elements `us`. -/
inductive StrBody (e : StrEnc) : List Nat → List Nat → Prop
  | nil : StrBody e [] []
  | esc (v : Nat) (x t us : List Nat) : Esc v x (t ++ [34]) → StrBody e t us →
      StrBody e (92 :: x ++ t) (v % 2 ^ elemBits e :: us)
  | chr (bs u t us : List Nat) : Units e bs u → ¬ StartsWith (fun b => b = 34 ∨ b = 92 ∨ b = 10) bs →
      StrBody e t us → StrBody e (bs ++ t) (u ++ us)

/-- The first character of a character literal and its value. -/
inductive ChrBody : Nat → List Nat → List Nat → Prop
  | esc (v : Nat) (x rest : List Nat) : Esc v x rest → ChrBody v (92 :: x) rest
  | chr (c : Nat) (bs rest : List Nat) : LooseUtf8 c bs → bs ≠ [92] → ChrBody c bs rest

/-- Encoding prefixes of string literals. -/
def strPrefixes : List (List Nat × StrEnc) :=
  [([], .narrow), (chars ['u', '8'], .narrow), (chars ['u'], .utf16), (chars ['L'], .wide),
   (chars ['U'], .utf32)]

/-- A 32-bit pattern as a signed number. -/
def signed (bits v : Nat) : Int :=
  if v % 2 ^ bits < 2 ^ (bits - 1) then (v % 2 ^ bits : Nat) else ((v % 2 ^ bits : Nat) : Int) - 2 ^ bits

/-- Prefixes of character literals, the type and how the value is converted. -/
def chrPrefixes : List (List Nat × CharTy) :=
  [([], .int), (chars ['u'], .ushort), (chars ['L'], .int), (chars ['U'], .uint)]

/-- Value of a character literal: a signed `char` without prefix, an unsigned 16-bit value with
`u`, the 32-bit value (sign-extended, also for `U`) otherwise. -/
def chrValue (pre : List Nat) (v : Nat) : Int :=
  if pre = [] then signed 8 v else if pre = chars ['u'] then (v % 2 ^ 16 : Nat) else signed 32 v

/-- The text starts a string or character literal. -/
def StartsLiteral (t : List Nat) : Prop :=
  (∃ p ∈ strPrefixes, p.1 ++ [34] <+: t) ∨ (∃ p ∈ chrPrefixes, p.1 ++ [39] <+: t)

/-- The text starts a comment. -/
def StartsComment (t : List Nat) : Prop := [47, 47] <+: t ∨ [47, 42] <+: t

/-- `TokenText k v x rest`: `x`, followed by `rest`, is a token of kind `k` with value `v`. -/
inductive TokenText : Kind → Val → List Nat → List Nat → Prop
  | num (pre : List Nat) (d : Nat) (y rest : List Nat) : pre = [] ∨ pre = [46] → IsDigit d →
      PpRun y rest → TokenText .ppNum .none (pre ++ d :: y) rest
  | punct (x rest : List Nat) : x ≠ [] → IsLongest punctuators (x ++ rest) x.length →
      ¬ StartsComment (x ++ rest) → (∀ r, x ++ rest = 46 :: r → ¬ StartsWith IsDigit r) →
      TokenText .punct .none x rest
  | str (pre : List Nat) (e : StrEnc) (t us rest : List Nat) : (pre, e) ∈ strPrefixes →
      StrBody e t us → TokenText .str (.str e us) (pre ++ 34 :: t ++ [34]) rest
  /-- liberal: anything may stand between the first character and the closing quote -/
  | chr (pre : List Nat) (ty : CharTy) (v : Nat) (b junk rest : List Nat) : (pre, ty) ∈ chrPrefixes →
      ChrBody v b (junk ++ [39]) → 39 ∉ junk →
      TokenText .intNum (.chr (chrValue pre v) ty) (pre ++ 39 :: b ++ junk ++ [39]) rest
  | ident (x rest : List Nat) : x ≠ [] → IdentRun true x rest → ¬ StartsWith IsDigit x →
      ¬ StartsLiteral (x ++ rest) → TokenText .ident .none x rest

/-- `Layout pos line bol sp t ts`: the text `t`, which starts at byte `pos` on line `line`, has
the tokens `ts`, the last being the end-of-file token. `bol`: only white space and comments (or
nothing) since the beginning of the line; `sp`: white space or a comment since the last token or
newline. -/
inductive Layout : Nat → Nat → Bool → Bool → List Nat → List Tok → Prop
  | eof (pos line : Nat) (bol sp : Bool) :
      Layout pos line bol sp [] [{ kind := .eof, loc := pos, len := 0, atBol := true, hasSpace := sp,
                                   val := .none, lineNo := line }]
  | newline (pos line : Nat) (bol sp : Bool) (t : List Nat) (ts : List Tok) :
      Layout (pos + 1) (line + 1) true false t ts → Layout pos line bol sp (10 :: t) ts
  | white (pos line : Nat) (bol sp : Bool) (c : Nat) (t : List Nat) (ts : List Tok) :
      c = 32 ∨ c = 9 ∨ c = 11 ∨ c = 12 →
      Layout (pos + 1) line bol true t ts → Layout pos line bol sp (c :: t) ts
  | lineComment (pos line : Nat) (bol sp : Bool) (x t : List Nat) (ts : List Tok) : 10 ∉ x →
      Layout (pos + (47 :: 47 :: x).length) line bol true (10 :: t) ts →
      Layout pos line bol sp (47 :: 47 :: x ++ 10 :: t) ts
  | blockComment (pos line : Nat) (bol sp : Bool) (x t : List Nat) (ts : List Tok) :
      ¬ [42, 47] <:+: x →
      Layout (pos + (47 :: 42 :: x ++ [42, 47]).length) (line + x.count 10) bol true t ts →
      Layout pos line bol sp (47 :: 42 :: x ++ [42, 47] ++ t) ts
  | token (pos line : Nat) (bol sp : Bool) (k : Kind) (v : Val) (x t : List Nat) (ts : List Tok) :
      TokenText k v x t →
      Layout (pos + x.length) (line + x.count 10) false false t ts →
      Layout pos line bol sp (x ++ t)
        ({ kind := k, loc := pos, len := x.length, atBol := bol, hasSpace := sp, val := v,
           lineNo := line } :: ts)

/-- `Gap nl sp g`: `g` consists of white space, newlines and comments only; `nl` tells whether it
has a newline outside block comments, `sp` whether there is white space or a comment after the
last such newline. -/
inductive Gap : Bool → Bool → List Nat → Prop
  | nil : Gap false false []
  | newline (nl sp : Bool) (g : List Nat) : Gap nl sp g → Gap true sp (10 :: g)
  | white (nl sp : Bool) (c : Nat) (g : List Nat) : c = 32 ∨ c = 9 ∨ c = 11 ∨ c = 12 →
      Gap nl sp g → Gap nl (!nl || sp) (c :: g)
  | lineComment (nl sp : Bool) (x g : List Nat) : 10 ∉ x → Gap nl sp (10 :: g) →
      Gap nl sp (47 :: 47 :: x ++ 10 :: g)
  | blockComment (nl sp : Bool) (x g : List Nat) : ¬ [42, 47] <:+: x → Gap nl sp g →
      Gap nl (!nl || sp) (47 :: 42 :: x ++ [42, 47] ++ g)

/-- Position just after the last of some tokens. -/
def endOf (l : List Tok) : Nat :=
  match l.getLast? with
  | some a => a.loc + a.len
  | none => 0

end Slimcc.Spec
