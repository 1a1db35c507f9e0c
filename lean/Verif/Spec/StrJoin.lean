import Verif.Spec.Lex
import Verif.Model.StrJoin
/-!
Specification for C68: adjacent string literals (C23 5.1.1.2 phase 6, 6.4.5 p.5-7). Shared with the
model: encodings and the record of a token.
-/
set_option autoImplicit false
namespace Slimcc.Spec
open Slimcc.Lex (StrEnc StrTok)

/-- A string literal: its encoding prefix and the text between the quotes. -/
structure Lit where
  pre : List Nat
  body : List Nat

/-- The encoding a prefix stands for. -/
def prefixEnc (p : List Nat) : Option StrEnc := (strPrefixes.find? (·.1 = p)).map (·.2)

/-- The token of a literal that stands somewhere in a text, which ends with NUL. -/
structure IsTokenOf (l : Lit) (t : StrTok) : Prop where
  text : ∃ after rest, t.loc = l.pre ++ 34 :: l.body ++ 34 :: after ++ 0 :: rest ∧ ∀ b ∈ after, b < 256
  enc : prefixEnc l.pre = some t.enc
  units : StrBody t.enc l.body t.units
  bytes : ∀ b ∈ l.body, b ≠ 0 ∧ b < 256

/-- The tokens of literals. -/
inductive TokensOf : List Lit → List StrTok → Prop where
  | nil : TokensOf [] []
  | cons (l : Lit) (t : StrTok) (ls : List Lit) (ts : List StrTok) : IsTokenOf l t → TokensOf ls ts → TokensOf (l :: ls) (t :: ts)

/-- Element `u` in memory, `n` bytes, least significant first. -/
def InBytes (n u : Nat) (bs : List Nat) : Prop := bs.length = n ∧ ∀ i, i < n → bs[i]? = some (u / 256 ^ i % 256)

/-- Elements in memory. -/
inductive InMemory (n : Nat) : List Nat → List Nat → Prop where
  | nil : InMemory n [] []
  | cons (u : Nat) (us b bs : List Nat) : InBytes n u b → InMemory n us bs → InMemory n (u :: us) (b ++ bs)

/-- The prefix of the whole: the one that occurs, if any. -/
def WholePrefix (ls : List Lit) (p : List Nat) : Prop :=
  (∀ l ∈ ls, l.pre = [] ∨ l.pre = p) ∧ ((∀ l ∈ ls, l.pre = []) → p = [])

/-- The elements: each literal is read in the encoding of the whole. -/
inductive Elements (e : StrEnc) : List Lit → List Nat → Prop where
  | nil : Elements e [] []
  | cons (l : Lit) (ls : List Lit) (us vs : List Nat) : StrBody e l.body us → Elements e ls vs → Elements e (l :: ls) (us ++ vs)

/-- The array that the literals `ls` stand for together: element type, length and bytes. -/
def Joined (ls : List Lit) (e : StrEnc) (n : Nat) (mem : List Nat) : Prop :=
  ∃ p us, WholePrefix ls p ∧ prefixEnc p = some e ∧ Elements e ls us ∧ n = us.length + 1 ∧ InMemory (elemBits e / 8) (us ++ [0]) mem

end Slimcc.Spec
