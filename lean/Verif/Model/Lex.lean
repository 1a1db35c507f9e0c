import Verif.Model.Source
/-!
Model of the tokenizer, `/repo/tokenize.c` 134-449, 456-488, 621-633 and 646-792.

A pointer into the buffer is the list of bytes from it to the end of the *allocation*, so reading
past the NUL terminator is possible (it reads whatever bytes are there) and reading past the
allocation is `ub`. Loops take a fuel argument; running out of fuel is also reported as `ub`, so a
theorem that excludes `ub` also proves termination. `error` is a diagnostic (`error_at`).
-/
set_option autoImplicit false
namespace Slimcc.Lex
open Slimcc Slimcc.Source Slimcc.Unicode

/-- slimcc.h:37 `Isdigit`. -/
def isDigit (c : Nat) : Bool := decide (48 ≤ c) && decide (c ≤ 57)

/-- slimcc.h:38 `Isalnum`. -/
def isAlnum (c : Nat) : Bool := (decide (97 ≤ (c ||| 32)) && decide ((c ||| 32) ≤ 122)) || isDigit c

/-- `p[i]`. -/
def rd (p : List Nat) (i : Nat) : Outcome Nat :=
  match p[i]? with
  | some c => .ok c
  | none => .ub

/-- tokenize.c:159-184 `read_ident`: the position after the identifier (the position itself if
there is none). `start` tells whether `p` still is the start; `asmPp` is `opt_cc1_asm_pp`. -/
def readIdent (asmPp : Bool) : Nat → Bool → List Nat → Outcome (List Nat)
  | 0, _, _ => .ub
  | _ + 1, _, [] => .ub
  | fuel + 1, start, c :: p =>
    if c = 36 then
      if asmPp then .ok (c :: p) else readIdent asmPp fuel false p
    else if isAlnum c || c = 95 then readIdent asmPp fuel false p
    else if c ≥ 128 then
      match decodeUtf8 (c :: p) with
      | .ok (u, pos) =>
        if (if start then isIdent1 u else isIdent2 u) then readIdent asmPp fuel false pos
        else .ok (c :: p)
      | .error => .error
      | .ub => .ub
    else .ok (c :: p)

/-- tokenize.c:195-241 `read_punct`: the length of the punctuator at `p`, 0 if none.
Bytes: `-`45 `>`62 `&`38 `+`43 `=`61 `|`124 `<`60 `!`33 `%`37 `*`42 `/`47 `^`94 `#`35 `.`46 `$`36
`(`40 `)`41 `,`44 `:`58 `;`59 `?`63 `@`64 `[`91 `\`92 `]`93 `` ` ``96 `{`123 `}`125 `~`126. -/
def readPunct (asmPp : Bool) (p : List Nat) : Outcome Nat :=
  match rd p 0, rd p 1 with
  | .ok c, .ok d =>
    let isRepeat := decide (d = c)
    let isAssign := decide (d = 61)
    if c = 45 ∧ d = 62 then .ok 2
    else if c = 45 ∨ c = 38 ∨ c = 43 ∨ c = 61 ∨ c = 124 then
      .ok ((isRepeat || isAssign).toNat + 1)
    else if (c = 60 ∨ c = 62) ∧ isRepeat = true then
      match rd p 2 with
      | .ok e => .ok ((decide (e = 61)).toNat + 2)
      | .error => .error
      | .ub => .ub
    else if c = 60 ∨ c = 62 ∨ c = 33 ∨ c = 37 ∨ c = 42 ∨ c = 47 ∨ c = 94 then
      .ok (isAssign.toNat + 1)
    else if c = 35 then .ok (isRepeat.toNat + 1)
    else if c = 46 then
      if isRepeat then
        match rd p 2 with
        | .ok e => if e = c then .ok 3 else .ok 1
        | .error => .error
        | .ub => .ub
      else .ok 1
    else if c = 36 then .ok asmPp.toNat
    else if c = 40 ∨ c = 41 ∨ c = 44 ∨ c = 58 ∨ c = 59 ∨ c = 63 ∨ c = 64 ∨ c = 91 ∨ c = 92 ∨
        c = 93 ∨ c = 96 ∨ c = 123 ∨ c = 125 ∨ c = 126 then .ok 1
    else .ok 0
  | _, _ => .ub

/-- `Inrange(c, '0', '7')`. -/
def isOctal (c : Nat) : Bool := decide (48 ≤ c) && decide (c ≤ 55)

/-- tokenize.c:309-310: the hexadecimal loop; `c` is an `int` kept as its 32-bit pattern. -/
def hexLoop : List Nat → Nat → Outcome (Nat × List Nat)
  | [], _ => .ub
  | b :: p, c =>
    if isXdigit b then hexLoop p (((c <<< 4) + fromHex b) % 2 ^ 32) else .ok (c, b :: p)

/-- The `int` value of a `char`, as a 32-bit pattern (`char` is signed on x86-64). -/
def charToInt (b : Nat) : Nat := if b < 128 then b else 2 ^ 32 - 256 + b

/-- tokenize.c:328-339: single-character escapes. -/
def simpleEscape (b : Nat) : Nat :=
  if b = 97 then 7 else if b = 98 then 8 else if b = 116 then 9 else if b = 110 then 10
  else if b = 118 then 11 else if b = 102 then 12 else if b = 114 then 13 else if b = 101 then 27
  else charToInt b

/-- tokenize.c:289-340 `read_escaped_char`: the value (32-bit pattern) and the new position. -/
def readEscapedChar : List Nat → Outcome (Nat × List Nat)
  | [] => .ub
  | b :: p =>
    if isOctal b then
      match p with
      | [] => .ub
      | b2 :: p2 =>
        if isOctal b2 then
          match p2 with
          | [] => .ub
          | b3 :: p3 =>
            if isOctal b3 then .ok ((((b - 48) <<< 3) + (b2 - 48)) <<< 3 + (b3 - 48), p3)
            else .ok (((b - 48) <<< 3) + (b2 - 48), b3 :: p3)
        else .ok (b - 48, b2 :: p2)
    else if b = 120 then
      match p with
      | [] => .ub
      | b2 :: p2 => if !isXdigit b2 then .error else hexLoop (b2 :: p2) 0
    else .ok (simpleEscape b, p)

/-- tokenize.c:343-352 `string_literal_end`: the position of the closing quote. -/
def stringLiteralEnd : List Nat → Outcome (List Nat)
  | [] => .ub
  | c :: p =>
    if c = 34 then .ok (c :: p)
    else if c = 10 ∨ c = 0 then .error
    else if c = 92 then
      match p with
      | [] => .ub
      | _ :: p' => stringLiteralEnd p'
    else stringLiteralEnd p

/-- The kind of string reader; determines the element type. -/
inductive StrEnc where
  /-- `"..."`, `u8"..."` -/
  | narrow
  /-- `u"..."` -/
  | utf16
  /-- `L"..."` -/
  | wide
  /-- `U"..."` -/
  | utf32
  deriving DecidableEq, Repr

/-- The elements stored for one code point (tokenize.c:363, 390-399, 421). -/
def strElems (e : StrEnc) (p : List Nat) : Outcome (List Nat × List Nat) :=
  match e with
  | .narrow => match p with | [] => .ub | c :: p => .ok ([c % 256], p)
  | .utf16 =>
    match decodeUtf8 p with
    | .ok (c, p') =>
      if c < 0x10000 then .ok ([c % 2 ^ 16], p')
      else
        let c' := c - 0x10000
        .ok ([(0xd800 + ((c' >>> 10) &&& 0x3ff)) % 2 ^ 16, (0xdc00 + (c' &&& 0x3ff)) % 2 ^ 16], p')
    | .error => .error
    | .ub => .ub
  | .wide | .utf32 =>
    match decodeUtf8 p with
    | .ok (c, p') => .ok ([c], p')
    | .error => .error
    | .ub => .ub

/-- Truncation to the element type when an escape is stored (tokenize.c:361, 386, 419). -/
def truncElem (e : StrEnc) (c : Nat) : Nat :=
  match e with
  | .narrow => c % 256
  | .utf16 => c % 2 ^ 16
  | .wide | .utf32 => c

/-- tokenize.c:359-364, 384-400, 417-422: the loop `for (p = quote + 1; p < end;)`. The end is
given by the number of bytes from it to the end of the buffer (`endLen`). -/
def strLoop (e : StrEnc) (endLen : Nat) : Nat → List Nat → Outcome (List Nat)
  | 0, _ => .ub
  | fuel + 1, p =>
    if p.length ≤ endLen then .ok []
    else
      match p with
      | [] => .ub
      | c :: p1 =>
        match (if c = 92 then
            match readEscapedChar p1 with
            | .ok (v, p') => .ok ([truncElem e v], p')
            | .error => .error
            | .ub => .ub
          else strElems e (c :: p1)) with
        | .ok (us, p') =>
          match strLoop e endLen fuel p' with
          | .ok r => .ok (us ++ r)
          | .error => .error
          | .ub => .ub
        | .error => .error
        | .ub => .ub

/-- The number of elements of the buffer the readers allocate (tokenize.c:356, 381, 414);
`pre` is the length of the prefix before the quote, `n` is `end - quote`. -/
def strCap (e : StrEnc) (pre n : Nat) : Nat :=
  match e with
  | .narrow => n
  | .utf16 => pre + n
  | .wide | .utf32 => n

/-- tokenize.c:354-428: the three string readers, from the opening quote (`q` points behind it).
Storing more elements than allocated is `ub`; the terminating 0 comes from `calloc`, so the buffer
must have one more element. -/
def readString (e : StrEnc) (pre : Nat) (q : List Nat) : Outcome (List Nat × List Nat) :=
  match stringLiteralEnd q with
  | .ok fin =>
    match strLoop e fin.length (q.length + 1) q with
    | .ok us =>
      if us.length + 1 ≤ strCap e pre (q.length + 1 - fin.length) then .ok (us, fin.drop 1) else .ub
    | .error => .error
    | .ub => .ub
  | .error => .error
  | .ub => .ub

/-- `strchr` as a position. -/
def findByte (c : Nat) : List Nat → Outcome (Option (List Nat))
  | [] => .ub
  | b :: p => if b = c then .ok (some (b :: p)) else if b = 0 then .ok none else findByte c p

/-- tokenize.c:430-449 `read_char_literal`, `q` points behind the opening quote: the value
(32-bit pattern) and the position after the literal. -/
def readCharLit (q : List Nat) : Outcome (Nat × List Nat) :=
  match q with
  | [] => .ub
  | c :: q1 =>
    if c = 0 then .error
    else
      match (if c = 92 then readEscapedChar q1 else decodeUtf8 (c :: q1)) with
      | .ok (v, p) =>
        match findByte 39 p with
        | .ok (some fin) => .ok (v, fin.drop 1)
        | .ok none => .error
        | .error => .error
        | .ub => .ub
      | .error => .error
      | .ub => .ub

/-- tokenize.c:456-488 `new_pp_number`: the position after the number. -/
def ppNumber (asmPp : Bool) : Nat → List Nat → Outcome (List Nat)
  | 0, _ => .ub
  | _ + 1, [] => .ub
  | fuel + 1, c :: p =>
    if c = 46 then ppNumber asmPp fuel p
    else
      match (if c = 39 ∨ (c = 101 ∨ c = 69 ∨ c = 112 ∨ c = 80) then rd p 0 else .ok 0) with
      | .ok d =>
        if c = 39 ∧ isAlnum d then ppNumber asmPp fuel (p.drop 1)
        else if (c = 101 ∨ c = 69 ∨ c = 112 ∨ c = 80) ∧ (d = 43 ∨ d = 45) then
          ppNumber asmPp fuel (p.drop 1)
        else if c = 36 then
          if asmPp then .ok (c :: p) else ppNumber asmPp fuel p
        else if isAlnum c || c = 95 then ppNumber asmPp fuel p
        else if c ≥ 128 then
          match decodeUtf8 (c :: p) with
          | .ok (u, pos) => if isIdent2 u then ppNumber asmPp fuel pos else .ok (c :: p)
          | .error => .error
          | .ub => .ub
        else .ok (c :: p)
      | .error => .error
      | .ub => .ub

/-- Token kinds produced by `tokenize` (slimcc.h `TokenKind`). -/
inductive Kind where
  | ident | punct | str | intNum | ppNum | eof | pmark
  deriving DecidableEq, Repr

/-- Types given to character literals. -/
inductive CharTy where
  | int | ushort | uint
  deriving DecidableEq, Repr

/-- What a token carries besides its text. -/
inductive Val where
  | none
  | str (e : StrEnc) (units : List Nat)
  | chr (v : Int) (ty : CharTy)
  deriving DecidableEq, Repr

/-- The token fields that `tokenize` sets. -/
structure Tok where
  kind : Kind
  loc : Nat
  len : Nat
  atBol : Bool
  hasSpace : Bool
  val : Val
  lineNo : Nat
  deriving DecidableEq, Repr

/-- A 32-bit pattern as `int`. -/
def s32 (c : Nat) : Int := if c < 2 ^ 31 then c else (c : Int) - 2 ^ 32

/-- `(char)v`. -/
def s8 (c : Nat) : Int := if c % 256 < 128 then (c % 256 : Nat) else ((c % 256 : Nat) : Int) - 256

/-- tokenize.c:667: `for (char c = *p; *(++p) == c;)`. -/
def skipRun (c : Nat) : List Nat → Outcome (List Nat)
  | [] => .ub
  | b :: p => if b = c then skipRun c p else .ok (b :: p)

/-- tokenize.c:675-676: `while (*p != '\n') p++` (no test for NUL). -/
def skipLine : List Nat → Outcome (List Nat)
  | [] => .ub
  | b :: p => if b = 10 then .ok (b :: p) else skipLine p

/-- tokenize.c:683-689: search for the end of a block comment; the position after it. -/
def skipBlock : List Nat → Outcome (List Nat)
  | [] => .ub
  | b :: p =>
    if b = 0 then .error
    else if b = 42 then
      match rd p 0 with
      | .ok d => if d = 47 then .ok (p.drop 1) else skipBlock p
      | .error => .error
      | .ub => .ub
    else skipBlock p

/-- One round of the main loop of `tokenize`. -/
inductive Step where
  /-- tokenize.c:658-663 -/
  | newline (rest : List Nat)
  /-- tokenize.c:666-692: white space or a comment -/
  | blank (rest : List Nat)
  /-- a token -/
  | tok (k : Kind) (v : Val) (rest : List Nat)
  deriving DecidableEq, Repr

/-- A string literal as a step. -/
def strStep (e : StrEnc) (pre : Nat) (q : List Nat) : Outcome Step :=
  match readString e pre q with
  | .ok (us, rest) => .ok (.tok .str (.str e us) rest)
  | .error => .error
  | .ub => .ub

/-- A character literal as a step. -/
def chrStep (f : Nat → Int) (ty : CharTy) (q : List Nat) : Outcome Step :=
  match readCharLit q with
  | .ok (v, rest) => .ok (.tok .intNum (.chr (f v) ty) rest)
  | .error => .error
  | .ub => .ub

/-- tokenize.c:710-783: the rest of the loop body, for a position where no punctuator starts. `c`,
`d`, `e` are the next three bytes (`e` only read when `c d` is `u8`). -/
def stepWord (asmPp : Bool) (c d e : Nat) (q : List Nat) : Outcome Step :=
  if c = 34 then strStep .narrow 0 q
  else if c = 117 ∧ d = 56 ∧ e = 34 then strStep .narrow 2 (q.drop 2)
  else if c = 117 ∧ d = 34 then strStep .utf16 1 (q.drop 1)
  else if c = 76 ∧ d = 34 then strStep .wide 1 (q.drop 1)
  else if c = 85 ∧ d = 34 then strStep .utf32 1 (q.drop 1)
  else if c = 39 then chrStep s8 .int q
  else if c = 117 ∧ d = 39 then chrStep (fun v => (v % 2 ^ 16 : Nat)) .ushort (q.drop 1)
  else if c = 76 ∧ d = 39 then chrStep s32 .int (q.drop 1)
  else if c = 85 ∧ d = 39 then chrStep s32 .uint (q.drop 1)
  else
    match readIdent asmPp (q.length + 2) true (c :: q) with
    | .ok rest => if rest.length < q.length + 1 then .ok (.tok .ident .none rest) else .error
    | .error => .error
    | .ub => .ub

/-- tokenize.c:656-784: the body of the main loop of `tokenize` at a position with `*p ≠ 0`. -/
def step (asmPp : Bool) (p : List Nat) : Outcome Step :=
  match p with
  | [] => .ub
  | c :: q =>
    if c = 10 then .ok (.newline q)
    else if c = 32 ∨ c = 9 ∨ c = 11 ∨ c = 12 then
      match skipRun c q with
      | .ok r => .ok (.blank r)
      | .error => .error
      | .ub => .ub
    else
      match rd q 0 with
      | .ub => .ub
      | .error => .error
      | .ok d =>
        if c = 47 ∧ d = 47 then
          match skipLine (q.drop 1) with
          | .ok r => .ok (.blank r)
          | .error => .error
          | .ub => .ub
        else if c = 47 ∧ d = 42 then
          match skipBlock (q.drop 1) with
          | .ok r => .ok (.blank r)
          | .error => .error
          | .ub => .ub
        else if isDigit (if c = 46 then d else c) then
          match ppNumber asmPp (q.length + 1) (if c = 46 then q.drop 1 else q) with
          | .ok r => .ok (.tok .ppNum .none r)
          | .error => .error
          | .ub => .ub
        else
          match readPunct asmPp (c :: q) with
          | .ok (n + 1) => .ok (.tok .punct .none (q.drop n))
          | .ok 0 =>
            match (if c = 117 ∧ d = 56 then rd q 1 else .ok 0) with
            | .ok e => stepWord asmPp c d e q
            | .error => .error
            | .ub => .ub
          | .error => .error
          | .ub => .ub

/-- tokenize.c:656-789: the main loop of `tokenize`. `total` is the size of the buffer, so that
`total - p.length` is the index of `p`. `bol`, `sp` are the globals `at_bol`, `has_space`, which
`new_token` (134-155) copies into the token and clears. -/
def tokLoop (asmPp : Bool) (total : Nat) : Nat → List Nat → Bool → Bool → Outcome (List Tok)
  | 0, _, _, _ => .ub
  | _ + 1, [], _, _ => .ub
  | fuel + 1, c :: q, bol, sp =>
    if c = 0 then
      .ok [{ kind := .eof, loc := total - (c :: q).length, len := 0, atBol := true, hasSpace := sp,
             val := .none, lineNo := 0 }]
    else
      match step asmPp (c :: q) with
      | .ok (.newline r) => tokLoop asmPp total fuel r true false
      | .ok (.blank r) => tokLoop asmPp total fuel r bol true
      | .ok (.tok k v r) =>
        match tokLoop asmPp total fuel r false false with
        | .ok ts =>
          .ok ({ kind := k, loc := total - (c :: q).length, len := (c :: q).length - r.length,
                 atBol := bol, hasSpace := sp, val := v, lineNo := 0 } :: ts)
        | .error => .error
        | .ub => .ub
      | .error => .error
      | .ub => .ub

/-- tokenize.c:621-633 `add_line_numbers`: `i` is the index of `p`, `n` the line number, then the
tokens not yet reached. Tokens beyond the NUL keep line number 0; dereferencing the end of the
token list is `ub`. -/
def addLines : List Nat → Nat → Nat → List Tok → Outcome (List Tok)
  | [], _, _, _ => .ub
  | _ :: _, _, _, [] => .ub
  | c :: p, i, n, t :: ts =>
    let pend := if t.loc = i then ts else t :: ts
    match (if c = 0 then .ok pend else addLines p (i + 1) (if c = 10 then n + 1 else n) pend) with
    | .ok r => .ok (if t.loc = i then { t with lineNo := n } :: r else r)
    | .error => .error
    | .ub => .ub

/-- tokenize.c:646-792 `tokenize` on the contents of a file (the whole allocation). -/
def tokenize (asmPp : Bool) (mem : List Nat) : Outcome (List Tok) :=
  match tokLoop asmPp mem.length (mem.length + 1) mem true false with
  | .ok ts => addLines mem 0 1 ts
  | .error => .error
  | .ub => .ub

end Slimcc.Lex
