import Verif.Model.Macro
/-!
The meaning of a source file with directives (C23 6.10), on the tree of its groups. No condition stack, no
skipping, no record of include guards.
-/
set_option autoImplicit false
namespace Slimcc.Spec
open Slimcc.PP Slimcc.Mac

def word (s : String) : List Nat := s.toList.map Char.toNat

/-- A directive line: `#`, the keyword, and the rest of the line. -/
structure Line where
  hash : PTok
  kw : PTok
  args : List PTok

def Line.toks (l : Line) : List PTok := l.hash :: l.kw :: l.args

mutual
/-- The lines of a file: text lines, other directives, null directives, conditional groups. -/
inductive Items where
  | nil
  | text (ts : List PTok) (r : Items)
  | dir (l : Line) (r : Items)
  | null (h : PTok) (r : Items)
  | group (l : Line) (body : Items) (alts : Alts) (r : Items)
/-- What follows the first branch of a group. -/
inductive Alts where
  | endif (l : Line)
  | elif (l : Line) (body : Items) (alts : Alts)
  | els (l : Line) (body : Items) (last : Line)
end

mutual
/-- The tokens of the lines. -/
def Items.flat : Items → List PTok
  | .nil => []
  | .text ts r => ts ++ r.flat
  | .dir l r => l.toks ++ r.flat
  | .null h r => h :: r.flat
  | .group l body alts r => l.toks ++ (body.flat ++ (alts.flat ++ r.flat))
def Alts.flat : Alts → List PTok
  | .endif l => l.toks
  | .elif l body alts => l.toks ++ (body.flat ++ alts.flat)
  | .els l body last => l.toks ++ (body.flat ++ last.toks)
end

/-- A `#` at the beginning of a line. -/
def StartsLine (t : PTok) : Prop := t.atBol = true ∧ t.text = word "#" ∧ t.kind = .punct

def Line.WF (l : Line) : Prop := StartsLine l.hash ∧ (l.kw.atBol = false ∧ l.kw.kind = .ident) ∧ ∀ a ∈ l.args, a.atBol = false

def Line.Is (l : Line) (ks : List String) : Prop := ∃ k ∈ ks, l.kw.text = word k

abbrev ifWords : List String := ["if", "ifdef", "ifndef"]
abbrev elifWords : List String := ["elif", "elifdef", "elifndef"]

def Items.startsText : Items → Bool
  | .text _ _ => true
  | _ => false

mutual
/-- The tokens are divided into lines as they should be. A null directive is not followed by a text line. -/
def Items.WF : Items → Prop
  | .nil => True
  | .text ts r => (∃ t u, ts = t :: u ∧ t.atBol = true) ∧ (∀ t ∈ ts, ¬ (t.atBol = true ∧ t.text = word "#")) ∧ r.startsText = false ∧ r.WF
  | .dir l r => l.WF ∧ ¬ l.Is ifWords ∧ ¬ l.Is elifWords ∧ ¬ l.Is ["else", "endif"] ∧ r.WF
  | .null h r => StartsLine h ∧ r.startsText = false ∧ r.WF
  | .group l body alts r => l.WF ∧ l.Is ifWords ∧ body.WF ∧ alts.WF ∧ r.WF
def Alts.WF : Alts → Prop
  | .endif l => l.WF ∧ l.Is ["endif"]
  | .elif l body alts => l.WF ∧ l.Is elifWords ∧ body.WF ∧ alts.WF
  | .els l body last => l.WF ∧ l.Is ["else"] ∧ body.WF ∧ last.WF ∧ last.Is ["endif"]
end

/-- Whether what follows the lines cannot be taken as part of them: they do not end with text, a null directive,
an `#include` or a `#define` without replacement list. -/
def Items.sealed : Items → Bool
  | .nil => true
  | .text _ .nil => false
  | .dir l .nil => !(l.kw.text == word "include" || l.kw.text == word "include_next" || l.args.length == 1)
  | .null _ .nil => false
  | .group _ _ _ .nil => true
  | .text _ r => r.sealed
  | .dir _ r => r.sealed
  | .null _ r => r.sealed
  | .group _ _ _ r => r.sealed

/-- Whether the lines begin with a `(` that has no white space before it. -/
def Items.startsParen : Items → Bool
  | .text (t :: _) _ => t.text == word "(" && !t.hasSpace
  | _ => false

/-- An identifier (its text is not a parenthesis). -/
def IsName (t : PTok) : Prop := t.kind = .ident ∧ t.text ≠ word ")"

/-- The parameters of a macro: the tokens between the parentheses, the names, and whether the last one takes the
variable arguments. -/
inductive Params : List PTok → List Name → Bool → Prop where
  | none : Params [] [] false
  | last (t : PTok) : IsName t → Params [t] [t.text] false
  | dots (d : PTok) : d.text = word "..." → d.kind ≠ .ident → Params [d] [word "__VA_ARGS__"] true
  | named (t d : PTok) : IsName t → d.text = word "..." → d.kind ≠ .ident → Params [t, d] [t.text] true
  | more (t c : PTok) (ts : List PTok) (ns : List Name) (va : Bool) : IsName t → c.text = word "," → ts ≠ [] → Params ts ns va →
      Params (t :: c :: ts) (t.text :: ns) va

/-- What a `#define` line defines. -/
inductive Defines : List PTok → Name → Macro → Prop where
  | obj (t : PTok) (body : List PTok) : t.kind = .ident → (∀ p ∈ body.head?, ¬ (p.text = word "(" ∧ p.hasSpace = false)) →
      Defines (t :: body) t.text { isObj := true, body := body }
  | fn (t lp rp : PTok) (ps body : List PTok) (ns : List Name) (va : Bool) : t.kind = .ident → lp.text = word "(" → lp.hasSpace = false →
      Params ps ns va → rp.text = word ")" → Defines (t :: lp :: (ps ++ rp :: body)) t.text { isObj := false, params := ns, vaArg := va, body := body }

/-- What the meaning of directives rests on. -/
structure Lang where
  /-- the expansion of a text -/
  expands : (Name → Option Macro) → List PTok → List PTok → Prop
  /-- the value of the condition of an `#if` -/
  holds : (Name → Option Macro) → List PTok → Bool → Prop
  /-- the file meant by an `#include` or (flag) `#include_next` in a file -/
  resolve : Bool → (Name → Option Macro) → List Nat → List PTok → List Nat → Prop
  /-- the lines of a file -/
  tree : List Nat → Option Items
  /-- whether the operands of a `#line` are as they should be -/
  line : (Name → Option Macro) → List PTok → Prop

/-- The state: the macros, and the files that are not to be included again. -/
structure PpState where
  macros : Name → Option Macro
  once : List (List Nat)

def PpState.set (s : PpState) (n : Name) (m : Option Macro) : PpState := { s with macros := fun x => if x = n then m else s.macros x }

/-- Whether the condition of a line holds. -/
inductive Truth (L : Lang) (σ : Name → Option Macro) (l : Line) : Bool → Prop where
  | expr (b : Bool) : l.Is ["if", "elif"] → L.holds σ l.args b → Truth L σ l b
  | defd (t : PTok) (ex : List PTok) : l.Is ["ifdef", "elifdef"] → l.args = t :: ex → t.kind = .ident → Truth L σ l (σ t.text).isSome
  | ndefd (t : PTok) (ex : List PTok) : l.Is ["ifndef", "elifndef"] → l.args = t :: ex → t.kind = .ident → Truth L σ l (σ t.text).isNone

mutual
/-- The lines of the file `p`, processed in the state, yield the tokens and the next state. -/
inductive Sem (L : Lang) : List Nat → PpState → Items → List PTok → PpState → Prop where
  | nil (p : List Nat) (s : PpState) : Sem L p s .nil [] s
  | text (p : List Nat) (s s' : PpState) (ts o o2 : List PTok) (r : Items) : (∀ t ∈ ts, t.text ≠ word "#") → L.expands s.macros ts o → Sem L p s r o2 s' →
      Sem L p s (.text ts r) (o ++ o2) s'
  | define (p : List Nat) (s s' : PpState) (l : Line) (n : Name) (m : Macro) (o : List PTok) (r : Items) : l.Is ["define"] → Defines l.args n m →
      (l.args.length = 1 → r.startsParen = false) → Sem L p (s.set n (some m)) r o s' → Sem L p s (.dir l r) o s'
  | undef (p : List Nat) (s s' : PpState) (l : Line) (t : PTok) (ex o : List PTok) (r : Items) : l.Is ["undef"] → l.args = t :: ex → t.kind = .ident →
      Sem L p (s.set t.text none) r o s' → Sem L p s (.dir l r) o s'
  | once (p : List Nat) (s s' : PpState) (l : Line) (t : PTok) (ex o : List PTok) (r : Items) : l.Is ["pragma"] → l.args = t :: ex → t.text = word "once" →
      Sem L p { s with once := p :: s.once } r o s' → Sem L p s (.dir l r) o s'
  | inert (p : List Nat) (s s' : PpState) (l : Line) (o : List PTok) (r : Items) :
      (l.Is ["pragma"] ∧ ∃ t ex, l.args = t :: ex ∧ t.text ≠ word "once") ∨ l.Is ["warning"] ∨ (l.Is ["line"] ∧ L.line s.macros l.args) →
      Sem L p s r o s' → Sem L p s (.dir l r) o s'
  | null (p : List Nat) (s s' : PpState) (h : PTok) (o : List PTok) (r : Items) : Sem L p s r o s' → Sem L p s (.null h r) o s'
  | incl (p q : List Nat) (s s1 s' : PpState) (l : Line) (next : Bool) (items : Items) (o o2 : List PTok) (r : Items) :
      l.kw.text = word (if next then "include_next" else "include") → L.resolve next s.macros p l.args q → q ∉ s.once → L.tree q = some items →
      (items.sealed = true ∨ r.startsText = false) → Sem L q s items o s1 → Sem L p s1 r o2 s' → Sem L p s (.dir l r) (o ++ o2) s'
  | inclOnce (p q : List Nat) (s s' : PpState) (l : Line) (next : Bool) (o : List PTok) (r : Items) :
      l.kw.text = word (if next then "include_next" else "include") → L.resolve next s.macros p l.args q → q ∈ s.once →
      Sem L p s r o s' → Sem L p s (.dir l r) o s'
  | yes (p : List Nat) (s s1 s' : PpState) (l : Line) (body : Items) (alts : Alts) (r : Items) (o o2 : List PTok) : Truth L s.macros l true →
      Sem L p s body o s1 → Sem L p s1 r o2 s' → Sem L p s (.group l body alts r) (o ++ o2) s'
  | no (p : List Nat) (s s1 s' : PpState) (l : Line) (body : Items) (alts : Alts) (r : Items) (o o2 : List PTok) : Truth L s.macros l false →
      SemAlts L p s alts o s1 → Sem L p s1 r o2 s' → Sem L p s (.group l body alts r) (o ++ o2) s'
/-- The rest of a group no branch of which has been taken. -/
inductive SemAlts (L : Lang) : List Nat → PpState → Alts → List PTok → PpState → Prop where
  | endif (p : List Nat) (s : PpState) (l : Line) : SemAlts L p s (.endif l) [] s
  | yes (p : List Nat) (s s1 : PpState) (l : Line) (body : Items) (alts : Alts) (o : List PTok) : Truth L s.macros l true → Sem L p s body o s1 →
      SemAlts L p s (.elif l body alts) o s1
  | no (p : List Nat) (s s1 : PpState) (l : Line) (body : Items) (alts : Alts) (o : List PTok) : Truth L s.macros l false → SemAlts L p s alts o s1 →
      SemAlts L p s (.elif l body alts) o s1
  | els (p : List Nat) (s s1 : PpState) (l last : Line) (body : Items) (o : List PTok) : Sem L p s body o s1 → SemAlts L p s (.els l body last) o s1
end

/-- The file is one `#ifndef` group on the name, without other branches, and nothing else. -/
def IsGuarded (tree : List Nat → Option Items) (p : List Nat) (g : Name) : Prop :=
  ∃ l body last t ex, tree p = some (.group l body (.endif last) .nil) ∧ l.kw.text = word "ifndef" ∧ l.args = t :: ex ∧ t.kind = .ident ∧ t.text = g

/-- From the opening line of a group to the beginning of the branch that is taken, and whether this is the
`#else` branch. -/
inductive ToBranch (L : Lang) (σ : Name → Option Macro) : List PTok → Bool → Prop where
  | yes (l : Line) : l.WF → l.Is elifWords → Truth L σ l true → ToBranch L σ l.toks false
  | els (l : Line) : l.WF → l.Is ["else"] → ToBranch L σ l.toks true
  | no (l : Line) (body : Items) (ts : List PTok) (e : Bool) : l.WF → l.Is elifWords → Truth L σ l false → body.WF → ToBranch L σ ts e →
      ToBranch L σ (l.toks ++ (body.flat ++ ts)) e

inductive Enters (L : Lang) (σ : Name → Option Macro) : List PTok → Bool → Prop where
  | yes (l : Line) : l.WF → l.Is ifWords → Truth L σ l true → Enters L σ l.toks false
  | no (l : Line) (body : Items) (ts : List PTok) (e : Bool) : l.WF → l.Is ifWords → Truth L σ l false → body.WF → ToBranch L σ ts e →
      Enters L σ (l.toks ++ (body.flat ++ ts)) e

/-- The beginning of the file `p`, up to a point inside of groups that are not closed: the tokens, what they yield,
the state, and for every open group, the inner one first, whether it is in its `#else` branch. -/
inductive Reach (L : Lang) (p : List Nat) (s : PpState) : List PTok → List PTok → PpState → List Bool → Prop where
  | start : Reach L p s [] [] s []
  | enter (toks ts o o2 : List PTok) (s1 s2 : PpState) (k : List Bool) (items : Items) (e : Bool) : Reach L p s toks o s1 k → items.WF → Sem L p s1 items o2 s2 →
      Enters L s2.macros ts e → Reach L p s (toks ++ (items.flat ++ ts)) (o ++ o2) s2 (e :: k)

end Slimcc.Spec
