import Verif.Model.Lex
/-!
Adjacent string literals, preprocess.c:1736-1803.

Simplifications, for the whole file:
* A token is the memory from `tok->loc` on, its element type, and the elements of `tok->str` without
  the terminating zero that every token has.
* The lengths are not bounded (`int` in the code).
* Line numbers and the list structure are left out.
-/
set_option autoImplicit false
namespace Slimcc.Lex

structure StrTok where
  loc : List Nat
  enc : StrEnc
  units : List Nat
  deriving DecidableEq, Repr

/-- preprocess.c:1736-1738. -/
inductive StrKind where
  | none | utf8 | utf16 | utf32 | wide
  deriving DecidableEq, Repr

/-- preprocess.c:1740-1751 `getStringKind`. `strcmp` compares up to the NUL. -/
def getStringKind (loc : List Nat) : Outcome StrKind :=
  if loc.take 3 = [117, 56, 0] then .ok .utf8
  else match loc with
    | [] => .ub
    | c :: _ =>
      if c = 34 then .ok .none
      else if c = 117 then .ok .utf16
      else if c = 85 then .ok .utf32
      else if c = 76 then .ok .wide
      else .error

/-- `ty->base->size`. -/
def elemSize : StrEnc → Nat
  | .narrow => 1
  | .utf16 => 2
  | .wide | .utf32 => 4

/-- preprocess.c:1768-1776: the kind and the element type of the result. -/
def joinKind (k : StrKind) (e : StrEnc) : List StrTok → Outcome StrEnc
  | [] => .ok e
  | t :: ts =>
    match getStringKind t.loc with
    | .ok k' =>
      if k = .none then joinKind k' t.enc ts
      else if k' ≠ .none ∧ k ≠ k' then .error
      else joinKind k e ts
    | .error => .error
    | .ub => .ub

/-- tokenize.c:635-643 `tokenize_string_literal`: `tok->loc` is taken for the opening quote. -/
def retokenize (e : StrEnc) (t : StrTok) : Outcome StrTok :=
  match t.loc with
  | [] => .ub
  | _ :: q =>
    match readString (if elemSize e = 2 then .utf16 else e) 0 q with
    | .ok (us, _) => .ok { t with enc := if elemSize e = 2 then .utf16 else e, units := us }
    | .error => .error
    | .ub => .ub

/-- preprocess.c:1778-1781. -/
def widen (e : StrEnc) : List StrTok → Outcome (List StrTok)
  | [] => .ok []
  | t :: ts =>
    match (if elemSize e > 1 ∧ elemSize t.enc = 1 then retokenize e t else .ok t) with
    | .ok t' =>
      match widen e ts with
      | .ok ts' => .ok (t' :: ts')
      | .error => .error
      | .ub => .ub
    | .error => .error
    | .ub => .ub

/-- An element in memory, least significant byte first. -/
def leBytes : Nat → Nat → List Nat
  | 0, _ => []
  | n + 1, u => u % 256 :: leBytes n (u / 256)

/-- `tok->str`, `tok->ty->size` bytes. -/
def StrTok.mem (t : StrTok) : List Nat := (t.units ++ [0]).flatMap (leBytes (elemSize t.enc))

/-- `memcpy(buf + i, src, n)`. -/
def storeAt (buf : List Nat) (i : Nat) (src : List Nat) : Outcome (List Nat) :=
  if i + src.length ≤ buf.length then .ok (buf.take i ++ src ++ buf.drop (i + src.length)) else .ub

/-- preprocess.c:1790-1794. -/
def copyAll (buf : List Nat) (i : Nat) : List StrTok → Outcome (List Nat)
  | [] => .ok buf
  | t :: ts =>
    match storeAt buf i t.mem with
    | .ok buf' => copyAll buf' (i + t.mem.length - elemSize t.enc) ts
    | .error => .error
    | .ub => .ub

/-- preprocess.c:1783-1786: `array_len` of the result. -/
def joinLen : List StrTok → Nat
  | [] => 0
  | t :: ts => ts.foldl (fun n t => n + (t.units.length + 1) - 1) (t.units.length + 1)

/-- preprocess.c:1755-1802 `join_adjacent_string_literals`: the element type, number of elements and
bytes of the array. -/
def joinStrings : List StrTok → Outcome (StrEnc × Nat × List Nat)
  | [] => .ub
  | t :: ts =>
    match getStringKind t.loc with
    | .ok k =>
      match joinKind k t.enc ts with
      | .ok e =>
        match widen e (t :: ts) with
        | .ok l =>
          match copyAll (List.replicate (elemSize e * joinLen l) 0) 0 l with
          | .ok buf => .ok (e, joinLen l, buf)
          | .error => .error
          | .ub => .ub
        | .error => .error
        | .ub => .ub
      | .error => .error
      | .ub => .ub
    | .error => .error
    | .ub => .ub

end Slimcc.Lex
