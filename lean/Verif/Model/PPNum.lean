import Verif.Model.Lex
/-!
Model of integer literals, tokenize.c:490-618 (`convert_pp_int`, the integer part of
`convert_pp_number`).
-/
set_option autoImplicit false
namespace Slimcc.PPNum
open Slimcc Slimcc.Lex Slimcc.Source

/-- The integer types a literal can get (type.c: `ty_int`, ...). -/
inductive IntTy where
  | int | uint | long | ulong | llong | ullong
  deriving DecidableEq, Repr

/-- slimcc.h:40 `Casecmp`. -/
def casecmp (c a : Nat) : Bool := (c ||| 32) == a

/-- A digit in base 2, 8, 10 or 16. -/
def isDig (base c : Nat) : Bool :=
  if base = 16 then isXdigit c
  else if base = 10 then isDigit c
  else if base = 8 then isOctal c
  else c == 48 || c == 49

/-- The optional `0x` that `strtoul` skips in base 16. -/
def skip0x (base : Nat) (p : List Nat) : List Nat :=
  match p with
  | a :: b :: c :: r =>
    if base = 16 && a == 48 && casecmp b 120 && isXdigit c then c :: r else p
  | _ => p

/-- `strtoul(p, &p, base)` of the C library (C23 7.24.1.8), for `p` not at white space or a sign
(the callers' `p` is at a digit or a dot): an optional `0x`/`0X` in base 16 (taken only if a
hexadecimal digit follows), then the longest run of digits; the value saturates at ULONG_MAX;
without digits the value is 0 and `p` does not move. The text must contain a non-digit (the NUL);
otherwise `ub`. -/
def strtoul (base : Nat) (p : List Nat) : Outcome (Nat × List Nat) :=
  let ds := (skip0x base p).takeWhile (isDig base)
  match (skip0x base p).dropWhile (isDig base) with
  | [] => .ub
  | r =>
    if ds.isEmpty then .ok (0, p)
    else .ok (min (ds.foldl (fun v d => v * base + fromHex d) 0) (2 ^ 64 - 1), r)

/-- A 64-bit pattern as `int64_t`. -/
def s64 (v : Nat) : Int := if v < 2 ^ 63 then v else (v : Int) - 2 ^ 64

/-- tokenize.c:494-505: the base and the position of the digits. -/
def readBase (p : List Nat) : Outcome (Nat × List Nat) :=
  match rd p 0 with
  | .ok c0 =>
    if c0 = 48 then
      match rd p 1 with
      | .ok c1 =>
        if casecmp c1 120 || casecmp c1 98 then
          match rd p 2 with
          | .ok c2 =>
            if casecmp c1 120 && isXdigit c2 then .ok (16, p.drop 2)
            else if casecmp c1 98 && (c2 == 48 || c2 == 49) then .ok (2, p.drop 2)
            else .ok (8, p)
          | .error => .error
          | .ub => .ub
        else .ok (8, p)
      | .error => .error
      | .ub => .ub
    else .ok (10, p)
  | .error => .error
  | .ub => .ub

/-- tokenize.c:509-520: the suffix, as (unsigned, number of `l`s, rest). -/
def readSuffix (p : List Nat) : Outcome (Bool × Nat × List Nat) :=
  match rd p 0 with
  | .ok c0 =>
    if casecmp c0 117 then
      match rd p 1 with
      | .ok c1 =>
        if casecmp c1 108 then
          match rd p 2 with
          | .ok c2 => .ok (true, 1 + (c1 == c2).toNat, p.drop (1 + (c1 == c2).toNat + 1))
          | .error => .error
          | .ub => .ub
        else .ok (true, 0, p.drop 1)
      | .error => .error
      | .ub => .ub
    else if casecmp c0 108 then
      match rd p 1 with
      | .ok c1 =>
        let l := 1 + (c0 == c1).toNat
        match rd p l with
        | .ok c => .ok (casecmp c 117, l, p.drop (l + (casecmp c 117).toNat))
        | .error => .error
        | .ub => .ub
      | .error => .error
      | .ub => .ub
    else .ok (false, 0, p)
  | .error => .error
  | .ub => .ub

/-- tokenize.c:528-562: the type. `val` is the `int64_t`; `>>` is an arithmetic shift. -/
def inferTy (base : Nat) (u : Bool) (l : Nat) (val : Int) : IntTy :=
  if base = 10 then
    if l = 2 && u then .ullong
    else if l = 1 && u then .ulong
    else if l = 2 then .llong
    else if l = 1 then .long
    else if u then (if val >>> 32 ≠ 0 then .ulong else .uint)
    else (if val >>> 31 ≠ 0 then .long else .int)
  else
    if l = 2 && u then .ullong
    else if l = 1 && u then .ulong
    else if l = 2 then (if val >>> 63 ≠ 0 then .ullong else .llong)
    else if l = 1 then (if val >>> 63 ≠ 0 then .ulong else .long)
    else if u then (if val >>> 32 ≠ 0 then .ulong else .uint)
    else if val >>> 63 ≠ 0 then .ulong
    else if val >>> 32 ≠ 0 then .long
    else if val >>> 31 ≠ 0 then .uint
    else .int

/-- tokenize.c:490-567 `convert_pp_int` on a buffer `loc` whose text has length `len`: the 64-bit
pattern and the type, or `none` (`return false`). Pointers are compared by what follows them. -/
def convertPpInt (loc : List Nat) (len : Nat) : Outcome (Option (Nat × IntTy)) :=
  match readBase loc with
  | .ok (base, p) =>
    match strtoul base p with
    | .ok (val, p) =>
      match readSuffix p with
      | .ok (u, l, p) =>
        if p.length ≠ loc.length - len then .ok none
        else .ok (some (val, inferTy base u l (s64 val)))
      | .error => .error
      | .ub => .ub
    | .error => .error
    | .ub => .ub
  | .error => .error
  | .ub => .ub

/-- Result of `convert_pp_number` on a pp-number token: an integer, or something that is handed
to `strtold` (floating point is not modelled). -/
inductive NumRes where
  | int (v : Nat) (ty : IntTy)
  | notInt
  deriving DecidableEq, Repr

/-- tokenize.c:570-595, `convert_pp_number` on a token with the given text; `stale` are the bytes
of `buf[227]` behind the NUL. -/
def convertPpNumber (text stale : List Nat) : Outcome NumRes :=
  if text.length ≥ 227 then .error
  else
    let s := text.filter (fun b => b != 39)
    match convertPpInt (s ++ 0 :: stale) s.length with
    | .ok (some (v, ty)) => .ok (.int v ty)
    | .ok none => .ok .notInt
    | .error => .error
    | .ub => .ub

end Slimcc.PPNum
