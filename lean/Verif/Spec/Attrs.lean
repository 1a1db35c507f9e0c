/-!
Attribute specifiers in C source: GNU `__attribute__((...))` and C23 `[[...]]` (C23 6.7.13), as they stand
between the other tokens, and what they apply to: the next token that is not part of a specifier.
-/
set_option autoImplicit false
namespace Slimcc.Spec.Attrs

/-- Tokens; those that delimit attributes have constructors of their own. -/
inductive Tk where
  | ident (s : String)
  | lpar | rpar | lbrk | rbrk | comma | colon
  | other (s : String)
  deriving DecidableEq, Repr

/-- An attribute: `name`, `vendor::name`, `name(args)` or `vendor::name(args)`. -/
structure Attr where
  vendor : Option String
  name : String
  args : Option (List Tk)

/-- What a source file is made of. -/
inductive Item where
  | tok (t : Tk)
  | gnu (short : Bool) (as : List Attr)
  | std (as : List Attr)

/-- The tokens of an attribute without its vendor. -/
def Attr.own (a : Attr) : List Tk :=
  .ident a.name :: (match a.args with | none => [] | some ts => .lpar :: ts ++ [.rpar])
def Attr.toks (a : Attr) : List Tk :=
  (match a.vendor with | none => [] | some v => [.ident v, .colon, .colon]) ++ a.own

def listToks : List Attr → List Tk
  | [] => []
  | [a] => a.toks
  | a :: as => a.toks ++ .comma :: listToks as

def Item.toks : Item → List Tk
  | .tok t => [t]
  | .gnu short as => .ident (if short then "__attribute" else "__attribute__") :: .lpar :: .lpar :: listToks as ++ [.rpar, .rpar]
  | .std as => .lbrk :: .lbrk :: listToks as ++ [.rbrk, .rbrk]

/-- The source as the sequence of its tokens. -/
def source (is : List Item) : List Tk := is.flatMap Item.toks

/-- Every opening token has a closing one, counted from `n` already open. -/
def Matched (o c : Tk) : Nat → List Tk → Prop
  | n, [] => n = 0
  | n, t :: ts => if t = o then Matched o c (n + 1) ts else if t = c then 0 < n ∧ Matched o c (n - 1) ts else Matched o c n ts

/-- Attributes with balanced arguments (6.7.13.2: balanced-token-sequence). -/
def Attr.Balanced (a : Attr) : Prop := ∀ ts, a.args = some ts → Matched .lpar .rpar 0 ts ∧ Matched .lbrk .rbrk 0 ts

/-- Tokens between specifiers that are not themselves the start of one; specifiers with balanced
arguments. -/
def Item.Ok : Item → Prop
  | .tok t => t ≠ .ident "__attribute__" ∧ t ≠ .ident "__attribute"
  | .gnu _ as => ∀ a ∈ as, a.Balanced
  | .std as => ∀ a ∈ as, a.Balanced

/-- No `[` stands directly before another one that is not its partner in `[[`. -/
def NoDouble : List Item → Prop
  | [] => True
  | .tok .lbrk :: is => (∀ t ts, source is = t :: ts → t ≠ .lbrk) ∧ NoDouble is
  | _ :: is => NoDouble is

/-- The attributes slimcc implements, all of them GNU attributes. -/
def known : List String :=
  ["alias", "aligned", "cleanup", "constructor", "destructor", "gnu_inline", "packed", "returns_twice", "section", "visibility", "weak"]

/-- `name` and `__name__` are the same attribute. -/
def Known (s : String) : Prop := ∃ k ∈ known, s = k ∨ s = "__" ++ k ++ "__"

instance (s : String) : Decidable (Known s) := inferInstanceAs (Decidable (∃ k ∈ known, s = k ∨ s = "__" ++ k ++ "__"))

/-- An attribute as the rest of the compiler sees it: of which form it is, and its tokens. -/
structure Seen where
  std : Bool
  toks : List Tk
  deriving DecidableEq, Repr

/-- In `[[ ]]` only `gnu::` attributes are known; the others are ignored. -/
def seen (std : Bool) (as : List Attr) : List Seen :=
  (as.filter fun a => decide (Known a.name) && (!std || a.vendor == some "gnu")).map fun a => ⟨std, a.own⟩

/-- Every token with the attributes between it and the token before, in order; `p` are those already
read. -/
def attach : List Seen → List Item → List (Tk × List Seen)
  | _, [] => []
  | p, .tok t :: is => (t, p) :: attach [] is
  | p, .gnu _ as :: is => attach (p ++ seen false as) is
  | p, .std as :: is => attach (p ++ seen true as) is

end Slimcc.Spec.Attrs
