import Verif.Model.Lex
/-!
Preprocessor tokens and the functions that turn token lists back into text
(preprocess.c: join_tokens, quote_string, new_str_token, stringize).
-/
set_option autoImplicit false
namespace Slimcc.PP
open Slimcc Slimcc.Lex

/-- A `Token` (slimcc.h:101-133) as the preprocessor sees it: `loc`/`len` are replaced by the text
they delimit; list links, file positions and values are left out. -/
structure PTok where
  kind : Kind
  text : List Nat
  atBol : Bool
  hasSpace : Bool
  /-- `dont_expand` -/
  noExpand : Bool := false
  deriving DecidableEq, Repr

/-- `add_slash && (t->kind == TK_STR || t->kind == TK_INT_NUM)` -/
def slashes (addSlash : Bool) (t : PTok) : Bool := addSlash && (t.kind == .str || t.kind == .intNum)

/-- preprocess.c:611-625, first pass of `join_tokens`: the size of the buffer, an `int` whose
overflow is `ub`. -/
def joinLen (addSlash : Bool) : List PTok → Nat → Outcome Nat
  | [], len => .ok len
  | t :: ts, len =>
    let len1 := if (t.hasSpace || t.atBol) && len != 1 then len + 1 else len
    let len2 := if slashes addSlash t then len1 + (t.text.filter (fun b => b == 92 || b == 34)).length else len1
    let len3 := len2 + t.text.length
    if len3 ≤ INT_MAX then joinLen addSlash ts len3 else .ub

/-- A store of some bytes behind the `out` already written in a buffer of `cap` bytes. -/
def put (cap : Nat) (out bytes : List Nat) : Outcome (List Nat) :=
  if out.length + bytes.length ≤ cap then .ok (out ++ bytes) else .ub

/-- preprocess.c:635-639: a token text with backslashes in front of `\` and `"`. -/
def putSlashed (cap : Nat) : List Nat → List Nat → Outcome (List Nat)
  | out, [] => .ok out
  | out, b :: bs =>
    if b == 92 || b == 34 then
      match put cap out [92] with
      | .ok o =>
        match put cap o [b] with
        | .ok o => putSlashed cap o bs
        | .error => .error
        | .ub => .ub
      | .error => .error
      | .ub => .ub
    else
      match put cap out [b] with
      | .ok o => putSlashed cap o bs
      | .error => .error
      | .ub => .ub

/-- preprocess.c:627-646, second pass of `join_tokens`, into a buffer of `cap` bytes. -/
def joinCopy (addSlash : Bool) (cap : Nat) : List PTok → List Nat → Outcome (List Nat)
  | [], out => .ok out
  | t :: ts, out =>
    match (if (t.hasSpace || t.atBol) && out.length != 0 then put cap out [32] else .ok out) with
    | .ok o =>
      match (if slashes addSlash t then putSlashed cap o t.text else put cap o t.text) with
      | .ok o => joinCopy addSlash cap ts o
      | .error => .error
      | .ub => .ub
    | .error => .error
    | .ub => .ub

/-- preprocess.c:611-648 `join_tokens`: the whole buffer, with its terminating NUL. `ub`: overflow
of the length or a store outside the buffer. -/
def joinTokens (addSlash : Bool) (ts : List PTok) : Outcome (List Nat) :=
  match joinLen addSlash ts 1 with
  | .ok cap =>
    match joinCopy addSlash cap ts [] with
    | .ok out => if out.length < cap then .ok (out ++ List.replicate (cap - out.length) 0) else .ub
    | .error => .error
    | .ub => .ub
  | .error => .error
  | .ub => .ub

/-- preprocess.c:202-209 `quote_string`, on the bytes before the NUL: the new buffer. -/
def quoteString (str : List Nat) : List Nat := 34 :: str ++ [34, 0]

/-- preprocess.c:211-214 `new_str_token`. -/
def newStrToken (str : List Nat) : Outcome (List Tok) := tokenize false (quoteString str)

/-- preprocess.c:652-661 `stringize`: the argument `ts` is the list before the EOF token. -/
def stringize (ts : List PTok) : Outcome (List Tok) :=
  match joinTokens true (ts.filter (fun t => t.kind != .pmark)) with
  | .ok buf => newStrToken (Source.cstr buf)
  | .error => .error
  | .ub => .ub

end Slimcc.PP
