import Verif.Model.AsmBody
import Verif.Spec.AsmRegs
/-!
Specification for C67: what a template stands for (GCC manual, 6.48.2.2, 6.48.2.6, 6.48.2.8). Shared
with the model: the record `Shown` of an operand and memory operands.
-/
set_option autoImplicit false
namespace Slimcc.AsmSpec
open Slimcc.Asm (Shown Reg AMem Plan)

/-- How a template names an operand: by number, or by name in brackets. -/
inductive Ref where
  | num (ds : List Char)
  | name (n : List Char)

def Ref.str : Ref → List Char
  | .num ds => ds
  | .name n => '[' :: n ++ [']']

/-- Numbers are whole: `t` is what follows. -/
def Ref.Whole (t : List Char) : Ref → Prop
  | .num ds => ds ≠ [] ∧ (∀ d ∈ ds, d.isDigit) ∧ ∀ c, t.head? = some c → ¬ c.isDigit
  | .name _ => True

/-- The operand meant: the one with the number, or the first with the name. -/
def Denotes (ops : List Shown) (names : Shown → List (List Char)) (i : Nat) : Ref → Prop
  | .num ds => i < ops.length ∧ decimal ds = i
  | .name n => (∃ o, ops[i]? = some o ∧ n ∈ names o) ∧ ∀ j, j < i → ∀ o, ops[j]? = some o → n ∉ names o

/-- The stem of a register's name. -/
def stem (r : Reg) : List Char :=
  (["", "ax", "cx", "dx", "si", "di", "r8", "r9", "r10", "r11", "r12", "r13", "r14", "r15", "bx", "bp", "sp"].getD r "").toList

/-- The names of general registers in AT&T syntax for operands of 1, 2, 4 and 8 bytes: `%al`, `%ax`,
`%eax`, `%rax`; `%sil`, `%si`, `%esi`, `%rsi`; `%r8b`, `%r8w`, `%r8d`, `%r8`. -/
def regName (r : Reg) (bytes : Nat) : List Char :=
  let s := stem r
  '%' :: (if s.head? = some 'r' then
      s ++ (if bytes = 1 then ['b'] else if bytes = 2 then ['w'] else if bytes = 4 then ['d'] else [])
    else if bytes = 1 then (if s.getLast? = some 'x' then s.dropLast else s) ++ ['l']
    else if bytes = 2 then s
    else (if bytes = 4 then 'e' else 'r') :: s)

/-- The size a modifier asks for. -/
def modSize : Char → Option Nat
  | 'b' => some 1
  | 'w' => some 2
  | 'k' => some 4
  | 'q' => some 8
  | _ => none

/-- An address in AT&T syntax. -/
inductive MemText (symName : Nat → List Char) : AMem → List Char → Prop where
  | frame (o : Int) (b : Reg) : MemText symName (.at_ o b) ((toString o).toList ++ '(' :: regName b 8 ++ [')'])
  | global (x : Nat) : MemText symName (.sym x) (symName x ++ "(%rip)".toList)

/-- What an operand with a modifier is replaced with; `shown` is how a memory operand is addressed
while the text runs (C66). -/
inductive Shows (symName : Nat → List Char) (shown : AMem → AMem) (o : Shown) : Option Char → List Char → Prop where
  | num (m : Option Char) : o.kind = .num → m ≠ some 'c' → Shows symName shown o m ('$' :: (toString o.val).toList)
  | numBare : o.kind = .num → Shows symName shown o (some 'c') (toString o.val).toList
  | sym (m : Option Char) (x : List Char) : o.kind = .sym → o.symTxt = some x → m ≠ some 'c' → Shows symName shown o m ('$' :: x)
  | symBare (x : List Char) : o.kind = .sym → o.symTxt = some x → Shows symName shown o (some 'c') x
  | mem (m : Option Char) (a : AMem) (x : List Char) : o.kind = .mem → o.mem = some a → MemText symName (shown a) x → Shows symName shown o m x
  | memAt (m : Option Char) : o.kind = .mem → o.mem = none → o.reg ≠ 0 → Shows symName shown o m ('(' :: regName o.reg 8 ++ [')'])
  | xmm (m : Option Char) (n : Nat) : o.kind = .reg → n < 16 → o.reg = Asm.rXMM0 + n → Shows symName shown o m ("%xmm".toList ++ (toString n).toList)
  | st (m : Option Char) (n : Nat) : o.kind = .reg → n < 8 → o.reg = Asm.rST0 + n → Shows symName shown o m ("%st(".toList ++ (toString n).toList ++ [')'])
  | gp (m : Option Char) : o.kind = .reg → Asm.rAX ≤ o.reg → o.reg ≤ Asm.rSP → m = none ∨ m = some 'c' →
      o.size = 1 ∨ o.size = 2 ∨ o.size = 4 ∨ o.size = 8 → Shows symName shown o m (regName o.reg o.size)
  | gpSized (c : Char) (n : Nat) : o.kind = .reg → Asm.rAX ≤ o.reg → o.reg ≤ Asm.rSP → modSize c = some n → Shows symName shown o (some c) (regName o.reg n)
  | gpHigh (y : Char) : o.kind = .reg → (o.reg, y) ∈ [(Asm.rAX, 'a'), (Asm.rBX, 'b'), (Asm.rCX, 'c'), (Asm.rDX, 'd')] →
      Shows symName shown o (some 'h') ['%', y, 'h']
  | gpLow : o.kind = .reg → Asm.rAX ≤ o.reg → o.reg ≤ Asm.rSP → o.reg ∉ [Asm.rAX, Asm.rBX, Asm.rCX, Asm.rDX] →
      Shows symName shown o (some 'h') (regName o.reg 1)

/-- What a label is replaced with: its name, or, when results have to be stored first, a local label
with the operand's number. -/
inductive ShowsLabel (hasOut : Bool) (o : Shown) (i : Nat) : List Char → Prop where
  | direct (u : List Char) : o.unique = some u → hasOut = false → ShowsLabel hasOut o i u
  | staged (u : List Char) : o.unique = some u → hasOut = true → ShowsLabel hasOut o i ((toString i).toList ++ ['f'])

/-- The modifiers. -/
def IsMod (c : Char) : Prop := c ∈ ['h', 'b', 'w', 'k', 'q', 'c']

/-- **The template `t` stands for the text `x`.** -/
inductive Expands (symName : Nat → List Char) (shown : AMem → AMem) (hasOut : Bool) (ops : List Shown) : List Char → List Char → Prop where
  | done : Expands symName shown hasOut ops [] []
  | text (c : Char) (t x : List Char) : c ≠ '%' → Expands symName shown hasOut ops t x → Expands symName shown hasOut ops (c :: t) (c :: x)
  | percent (t x : List Char) : Expands symName shown hasOut ops t x → Expands symName shown hasOut ops ('%' :: '%' :: t) ('%' :: x)
  | operand (m : Option Char) (r : Ref) (t x y : List Char) (i : Nat) (o : Shown) : (∀ c, m = some c → IsMod c) → r.Whole t →
      Denotes ops (fun o => o.name.toList) i r → ops[i]? = some o → Shows symName shown o m y →
      Expands symName shown hasOut ops t x → Expands symName shown hasOut ops ('%' :: m.toList ++ r.str ++ t) (y ++ x)
  | label (r : Ref) (t x y : List Char) (i : Nat) (o : Shown) : r.Whole t → Denotes ops (fun o => o.labels) i r → ops[i]? = some o →
      ShowsLabel hasOut o i y → Expands symName shown hasOut ops t x → Expands symName shown hasOut ops ('%' :: 'l' :: r.str ++ t) (y ++ x)

/-- The operands `ops` as printed describe those of the statement `q`: names are identifiers, memory
operands are found from a frame pointer or a symbol, or by an address in the register of one of `q`'s
operands. -/
structure Describe (q : Placed) (ops : List Shown) : Prop where
  names : ∀ o ∈ ops, (∀ n, o.name = some n → ']' ∉ n) ∧ ∀ n ∈ o.labels, ']' ∉ n
  frame : ∀ o ∈ ops, ∀ f b, o.mem = some (.at_ f b) → b = Asm.rBP ∨ b = Asm.rBX
  addr : ∀ o ∈ ops, o.kind = .mem → o.mem = none → o.reg ≠ 0 → ∃ i, i < q.count ∧ q.at_ i = .memoryAt o.reg

end Slimcc.AsmSpec
