import Verif.Model.Macro
import Verif.Spec.Macro
/-!
Argument substitution in a function-like macro, as C23 6.10.5.2 to 6.10.5.4 define it.

A replacement list is read as a sequence of operands; those joined by `##` form a chain. The value of a
parameter that stands alone is its completely expanded argument; in a chain it is the argument as it was
written. An empty argument is a placemarker. The tokens at both sides of a `##` are concatenated.
-/
set_option autoImplicit false
namespace Slimcc.SubstSpec
open Slimcc Slimcc.Lex Slimcc.PP
open Slimcc.Mac (Run Name)

mutual
/-- What stands for an argument: parameter number `i`, spelled `t`, or `__VA_OPT__ ( body )`. -/
inductive Ref where
  | par (t : PTok) (i : Nat)
  | opt (t lp : PTok) (body : Body) (rp : PTok)
/-- An operand: a token, an argument, or an argument made a string by `#` (the token `h`). -/
inductive Op where
  | tok (t : PTok)
  | arg (a : Ref)
  | str (h : PTok) (a : Ref)
/-- A replacement list: operands alone, chains of operands, and the GNU form `, ## __VA_ARGS__`. -/
inductive Body where
  | nil
  | one (o : Op) (rest : Body)
  | chain (o : Op) (ops : Chain) (rest : Body)
  | gnu (c h v : PTok) (rest : Body)
/-- What follows the first operand of a chain: `## o`, once or more. -/
inductive Chain where
  | last (h : PTok) (o : Op)
  | more (h : PTok) (o : Op) (rest : Chain)
end

mutual
/-- The tokens. -/
def Ref.toks : Ref → List PTok
  | .par t _ => [t]
  | .opt t lp b rp => t :: lp :: (b.toks ++ [rp])
def Op.toks : Op → List PTok
  | .tok t => [t]
  | .arg a => a.toks
  | .str h a => h :: a.toks
def Body.toks : Body → List PTok
  | .nil => []
  | .one o r => o.toks ++ r.toks
  | .chain o c r => o.toks ++ (c.toks ++ r.toks)
  | .gnu c h v r => c :: h :: v :: r.toks
def Chain.toks : Chain → List PTok
  | .last h o => h :: o.toks
  | .more h o c => h :: (o.toks ++ c.toks)
end

/-- A macro's parameters (the last one of a variadic macro is for the variable arguments), the arguments as
written and completely expanded, whether the variable arguments were left out, and what `#` and `##` make
of their operands. -/
structure Call where
  params : List Name
  variadic : Bool
  raw : Nat → List PTok
  exp : Nat → List PTok
  omitted : Bool
  str : List PTok → Run PTok
  paste : PTok → PTok → Run PTok

def Call.last (c : Call) : Nat := c.params.length - 1

/-- `__VA_OPT__` stands for something: the variable arguments expand to at least one token. -/
def Call.optOn (c : Call) : Bool := c.variadic && !(c.exp c.last).isEmpty

/-- The placemarker. -/
def mark : PTok := { kind := .pmark, text := [], atBol := true, hasSpace := false }

def isMark (t : PTok) : Bool := t.kind == .pmark

/-- The tokens `ts` in the place of the token `t`: the first one is spaced as `t` was; nothing is a
placemarker. -/
def place (t : PTok) : List PTok → List PTok
  | [] => [mark]
  | x :: xs => { x with atBol := t.atBol, hasSpace := t.hasSpace } :: xs

/-- `v ## x`: the last token of `v` is concatenated with the first one of `x`. A placemarker disappears
beside anything. -/
def glue (paste : PTok → PTok → Run PTok) (v x : List PTok) : Run (List PTok) :=
  match v.getLast?, x with
  | some l, y :: ys =>
    if isMark l then .done (v.dropLast ++ y :: ys)
    else if isMark y then .done (v ++ ys)
    else do
      let z ← paste l y
      .done (v.dropLast ++ z :: ys)
  | _, _ => .fail

mutual
/-- The tokens an argument stands for; `op` says whether it is an operand of `##`. -/
def Ref.val (c : Call) (op : Bool) : Ref → Run (List PTok)
  | .par t i => .done (place t (if op then c.raw i else c.exp i))
  | .opt t _ b _ => if c.optOn then do let v ← b.val c; .done (place t v) else .done [mark]
/-- The argument of `#`. -/
def Ref.spelled (c : Call) : Ref → Run (List PTok)
  | .par _ i => .done (c.raw i)
  | .opt _ _ b _ => if c.optOn then b.val c else .done []
def Op.val (c : Call) (op : Bool) : Op → Run (List PTok)
  | .tok t => .done [t]
  | .arg a => a.val c op
  | .str h a => do
    let ts ← a.spelled c
    let s ← c.str ts
    .done [{ s with atBol := h.atBol, hasSpace := h.hasSpace }]
/-- The replacement list with everything substituted, before placemarkers are removed. -/
def Body.val (c : Call) : Body → Run (List PTok)
  | .nil => .done []
  | .one o r => do
    let x ← o.val c false
    let y ← r.val c
    .done (x ++ y)
  | .chain o ops r => do
    let x ← o.val c true
    let x ← ops.onto c x
    let y ← r.val c
    .done (x ++ y)
  | .gnu k _ v r => do
    let y ← r.val c
    .done ((if c.omitted then [] else k :: place v (c.exp c.last)) ++ y)
/-- A chain, with the value `v` of what stands before it. -/
def Chain.onto (c : Call) (v : List PTok) : Chain → Run (List PTok)
  | .last _ o => do
    let x ← o.val c true
    glue c.paste v x
  | .more _ o r => do
    let x ← o.val c true
    let w ← glue c.paste v x
    r.onto c w
end

/-- The replacement (6.10.5.1, paragraph 1, up to rescanning). -/
def Body.replacement (c : Call) (b : Body) : Run (List PTok) := do
  let v ← b.val c
  .done (v.filter fun t => !isMark t)

/-- An object-like macro has no parameters, and `#` is no operator in it: its list consists of groups, a token and
those that are pasted to it one after the other (each given with its `##`). -/
def objToks : List (PTok × List (PTok × PTok)) → List PTok
  | [] => []
  | (x, ys) :: gs => x :: (ys.flatMap fun y => [y.1, y.2]) ++ objToks gs

def joined (paste : PTok → PTok → Run PTok) : PTok → List (PTok × PTok) → Run PTok
  | x, [] => .done x
  | x, y :: ys => do
    let z ← paste x y.2
    joined paste z ys

def objReplacement (paste : PTok → PTok → Run PTok) : List (PTok × List (PTok × PTok)) → Run (List PTok)
  | [] => .done []
  | (x, ys) :: gs => do
    let z ← joined paste x ys
    let r ← objReplacement paste gs
    .done (z :: r)

/-! ### Replacement lists that are read as such -/

abbrev hash : Name := [35]
abbrev hashhash : Name := [35, 35]
abbrev comma : Name := [44]
/-- `__VA_OPT__` -/
abbrev vaOpt : Name := [95, 95, 86, 65, 95, 79, 80, 84, 95, 95]

/-- Parameter number `i` of the macro, spelled `t`. -/
def IsPar (c : Call) (t : PTok) (i : Nat) : Prop := t.kind = .ident ∧ c.params[i]? = some t.text

/-- No operator, no parameter, no `__VA_OPT__`. -/
def IsTok (c : Call) (t : PTok) : Prop :=
  t.text ≠ hash ∧ t.text ≠ hashhash ∧ t.kind ≠ .pmark ∧ (t.kind = .ident → t.text ∉ c.params ∧ t.text ≠ vaOpt)

def Op.isStr : Op → Prop
  | .str _ _ => True
  | _ => False
def Op.isComma : Op → Prop
  | .tok t => t.text = comma
  | _ => False

mutual
def Ref.WF (c : Call) : Ref → Prop
  | .par t i => IsPar c t i
  | .opt t lp b rp => t.kind = .ident ∧ t.text = vaOpt ∧ Spec.IsOpen lp ∧ Spec.IsClose rp ∧ Spec.Nested b.toks ∧ b.WF c
def Op.WF (c : Call) : Op → Prop
  | .tok t => IsTok c t
  | .arg a => a.WF c
  | .str h a => h.text = hash ∧ a.WF c
/-- The comma of a chain is no operand (pasting it makes no token, and before the variable arguments it is the
GNU form). -/
def Body.WF (c : Call) : Body → Prop
  | .nil => True
  | .one o r => o.WF c ∧ r.WF c
  | .chain o ops r => o.WF c ∧ ¬ o.isComma ∧ ops.WF c ∧ r.WF c
  | .gnu k h v r => k.text = comma ∧ h.text = hashhash ∧ c.variadic = true ∧ IsPar c v c.last ∧ r.WF c
/-- A later operand of a chain is no `#` (the order in which `#` and `##` are evaluated is unspecified, and
slimcc takes `##` first). -/
def Chain.WF (c : Call) : Chain → Prop
  | .last h o => h.text = hashhash ∧ o.WF c ∧ ¬ o.isStr
  | .more h o r => h.text = hashhash ∧ o.WF c ∧ ¬ o.isStr ∧ ¬ o.isComma ∧ r.WF c
end

/-! ### Where slimcc departs from it

What follows an empty left operand is not treated as an operand of `##`: if it is the last operand, it is
expanded, and inside `__VA_OPT__` the placemarker remains before it. `solid` says that what has been joined so
far certainly does not end in a placemarker. -/

def Op.solid (c : Call) (before : Bool) : Op → Bool
  | .arg (.par _ i) => before || !(c.raw i).isEmpty
  | .arg (.opt ..) => false
  | _ => true

/-- An operand for which it makes no difference whether it is an operand of `##`. -/
def Op.same (c : Call) : Op → Prop
  | .arg (.par _ i) => c.exp i = c.raw i
  | _ => True

mutual
def Ref.Plain (c : Call) : Ref → Prop
  | .par _ _ => True
  | .opt _ _ b _ => b.Plain c true
def Op.Plain (c : Call) : Op → Prop
  | .tok _ => True
  | .arg a => a.Plain c
  | .str _ a => a.Plain c
/-- `inner`: inside `__VA_OPT__`. -/
def Body.Plain (c : Call) (inner : Bool) : Body → Prop
  | .nil => True
  | .one o r => o.Plain c ∧ r.Plain c inner
  | .chain o ops r => o.Plain c ∧ ops.Plain c inner (o.solid c false) ∧ r.Plain c inner
  | .gnu _ _ _ r => r.Plain c inner
def Chain.Plain (c : Call) (inner solid : Bool) : Chain → Prop
  | .last _ o => o.Plain c ∧ (inner = true → solid = true) ∧ (solid = true ∨ o.same c)
  | .more _ o r => o.Plain c ∧ (inner = true → solid = true) ∧ r.Plain c inner (o.solid c solid)
end

end Slimcc.SubstSpec
