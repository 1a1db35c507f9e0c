import Verif.Model.Unicode
/-!
Model of the source-text phases of `/repo/tokenize.c` (846-922): in-place rewriting of a
NUL-terminated buffer with a read index `p` and a write index `q`.
Memory is the list of all bytes of the allocation (so bytes after the terminator are visible);
any access outside it is `ub`.
-/
set_option autoImplicit false
namespace Slimcc.Source
open Slimcc

/-- Store one byte. -/
def wr (mem : List Nat) (i x : Nat) : Outcome (List Nat) :=
  if i < mem.length then .ok (mem.set i x) else .ub

/-- `strchr(p, c)` from index `p` (for `c ≠ 0`): the index found, or none at the NUL;
running off the buffer is `ub`. -/
def strchr (c : Nat) : List Nat → Nat → Outcome (Option Nat)
  | [], _ => .ub
  | b :: bs, i => if b = c then .ok (some i) else if b = 0 then .ok none else strchr c bs (i + 1)

/-- tokenize.c:851-860: the loop of `canonicalize_newline`. `fuel` bounds the iterations. -/
def canonLoop : Nat → List Nat → Nat → Nat → Outcome (List Nat)
  | 0, _, _, _ => .error
  | fuel + 1, mem, p, q =>
    match mem[p]? with
    | none => .ub
    | some c =>
      if c = 0 then wr mem q 0
      else if c = 13 then
        match wr mem q 10 with
        | .ok mem' =>
          match mem'[p + 1]? with
          | none => .ub
          | some d => canonLoop fuel mem' (p + ((if d = 10 then 1 else 0) + 1)) (q + 1)
        | .error => .error
        | .ub => .ub
      else
        match wr mem q c with
        | .ok mem' => canonLoop fuel mem' (p + 1) (q + 1)
        | .error => .error
        | .ub => .ub

/-- tokenize.c:846-862 `canonicalize_newline`. -/
def canonicalizeNewline (mem : List Nat) : Outcome (List Nat) :=
  match strchr 13 mem 0 with
  | .ok (some first) => canonLoop (mem.length + 1) mem first first
  | .ok none => .ok mem
  | .error => .error
  | .ub => .ub

/-- tokenize.c:878-879: `for (; n > 0; n--) *q++ = '\n'`. -/
def putNewlines : Nat → List Nat → Nat → Outcome (List Nat × Nat)
  | 0, mem, q => .ok (mem, q)
  | n + 1, mem, q =>
    match wr mem q 10 with
    | .ok mem' => putNewlines n mem' (q + 1)
    | .error => .error
    | .ub => .ub

/-- tokenize.c:871-884: the loop of `remove_backslash_newline`; `n` pending newlines. -/
def spliceLoop : Nat → List Nat → Nat → Nat → Nat → Outcome (List Nat)
  | 0, _, _, _, _ => .error
  | fuel + 1, mem, p, q, n =>
    match mem[p]? with
    | none => .ub
    | some c =>
      if c = 0 then wr mem q 0
      else
        match (if c = 92 then mem[p + 1]? else some 0) with
        | none => .ub
        | some d =>
          if c = 92 ∧ d = 10 then spliceLoop fuel mem (p + 2) q (n + 1)
          else
            match putNewlines (if c = 10 then n else 0) mem q with
            | .ok (mem', q') =>
              match mem'[p]? with
              | none => .ub
              | some c' =>
                match wr mem' q' c' with
                | .ok mem'' => spliceLoop fuel mem'' (p + 1) (q' + 1) (if c = 10 then 0 else n)
                | .error => .error
                | .ub => .ub
            | .error => .error
            | .ub => .ub

/-- tokenize.c:865-886 `remove_backslash_newline`. -/
def removeBackslashNewline (mem : List Nat) : Outcome (List Nat) :=
  match strchr 92 mem 0 with
  | .ok (some first) => spliceLoop (mem.length + 1) mem first first 0
  | .ok none => .ok mem
  | .error => .error
  | .ub => .ub

/-- slimcc.h `Isxdigit`. -/
def isXdigit (c : Nat) : Bool :=
  (48 ≤ c && c ≤ 57) || (97 ≤ c && c ≤ 102) || (65 ≤ c && c ≤ 70)

/-- tokenize.c:186-192 `from_hex` (only called on hexadecimal digits). -/
def fromHex (c : Nat) : Nat :=
  if 48 ≤ c ∧ c ≤ 57 then c - 48 else if 97 ≤ c ∧ c ≤ 102 then c - 97 + 10 else c - 65 + 10

/-- tokenize.c:888-896 `read_universal_char` on the bytes from `p`: `n` digits left. -/
def readUniversalChar : Nat → List Nat → Nat → Outcome Nat
  | 0, _, c => .ok c
  | _ + 1, [], _ => .ub
  | n + 1, b :: p, c =>
    if !isXdigit b then .ok 0
    else readUniversalChar n p (((c <<< 4) % 2 ^ 32) ||| fromHex b)

/-- Store a list of bytes. -/
def wrs : List Nat → Nat → List Nat → Outcome (List Nat)
  | mem, _, [] => .ok mem
  | mem, q, b :: bs =>
    match wr mem q b with
    | .ok mem' => wrs mem' (q + 1) bs
    | .error => .error
    | .ub => .ub

/-- tokenize.c:902-921: the loop of `convert_universal_chars`. -/
def ucnLoop : Nat → List Nat → Nat → Nat → Outcome (List Nat)
  | 0, _, _, _ => .error
  | fuel + 1, mem, p, q =>
    match mem[p]? with
    | none => .ub
    | some c =>
      if c = 0 then wr mem q 0
      else
        match (if c = 92 then mem[p + 1]? else some 0) with
        | none => .ub
        | some d =>
          let len := if c = 92 ∧ d = 117 then 4 else if c = 92 ∧ d = 85 then 8 else 0
          match (if len = 0 then .ok 0 else readUniversalChar len (mem.drop (p + 2)) 0) with
          | .error => .error
          | .ub => .ub
          | .ok u =>
            if u ≠ 0 then
              match wrs mem q (Unicode.encodeUtf8 u) with
              | .ok mem' => ucnLoop fuel mem' (p + 2 + len) (q + (Unicode.encodeUtf8 u).length)
              | .error => .error
              | .ub => .ub
            else
              match wr mem q c with
              | .ok mem' => ucnLoop fuel mem' (p + 1) (q + 1)
              | .error => .error
              | .ub => .ub

/-- tokenize.c:899-922 `convert_universal_chars`. -/
def convertUniversalChars (mem : List Nat) : Outcome (List Nat) :=
  ucnLoop (mem.length + 1) mem 0 0

/-- The C string stored in a buffer: the bytes before the first NUL. -/
def cstr (mem : List Nat) : List Nat := mem.takeWhile (· ≠ 0)

end Slimcc.Source
