/-
Specification for C44: the expression grammar of C (C23 6.5), as an inductive
relation between a nonterminal, the tokens it covers and the tree it stands
for.  The rules are the left-recursive ones of the standard; nothing here
mentions how the compiler parses.

`ext = false` is C itself with two GNU forms (`a ?: b` and `&&label`).
`ext = true` adds the two things slimcc accepts beyond C: any conditional
expression before an assignment operator, and postfix operators after a
`sizeof` operand.
-/
set_option autoImplicit false

namespace Slimcc.Gram

/-- The punctuators that occur in expressions. -/
inductive Pun where
  | lpar | rpar | lbrk | rbrk | dot | arrow | inc | dec
  | amp | star | plus | minus | tilde | bang | slash | percent
  | shl | shr | lt | gt | le | ge | eqeq | ne | caret | bar | ampamp | barbar
  | quest | colon | comma
  | asg | mulAsg | divAsg | modAsg | addAsg | subAsg | shlAsg | shrAsg
  | andAsg | xorAsg | orAsg
  deriving DecidableEq, Repr

/-- Tokens of an expression.  A type name between parentheses is one token
`ty`; identifiers and constants carry a number that tells them apart. -/
inductive ETok where
  | id (n : Nat) | num (n : Nat) | ty (n : Nat) | sizeof_ | p (x : Pun)
  deriving DecidableEq, Repr

inductive BinOp where
  | mul | div | mod | add | sub | shl | shr | lt | gt | le | ge | eq | ne
  | and | xor | or | land | lor
  deriving DecidableEq, Repr

inductive UnOp where
  | pos | neg | addr | deref | not | bnot
  deriving DecidableEq, Repr

inductive AsgOp where
  | set | mul | div | mod | add | sub | shl | shr | and | xor | or
  deriving DecidableEq, Repr

/-- What an expression means as a grouping of operators and operands. -/
inductive Tree where
  | var (n : Nat) | num (n : Nat) | labelAddr (n : Nat)
  | un (o : UnOp) (a : Tree)
  | bin (o : BinOp) (a b : Tree)
  | preInc (a : Tree) | preDec (a : Tree) | postInc (a : Tree) | postDec (a : Tree)
  | index (a i : Tree)
  | call (f args : Tree) | noArgs | args (a more : Tree)
  | member (a : Tree) (n : Nat) | arrow (a : Tree) (n : Nat)
  | cast (ty : Nat) (a : Tree)
  | sizeE (a : Tree) | sizeT (ty : Nat)
  | cond (c a b : Tree) | condOr (c b : Tree)
  | assign (o : AsgOp) (a b : Tree)
  | comma (a b : Tree)
  deriving DecidableEq, Repr

/-- The spelling of the binary operators. -/
def BinOp.tok : BinOp → Pun
  | .mul => .star | .div => .slash | .mod => .percent
  | .add => .plus | .sub => .minus
  | .shl => .shl | .shr => .shr
  | .lt => .lt | .gt => .gt | .le => .le | .ge => .ge
  | .eq => .eqeq | .ne => .ne
  | .and => .amp | .xor => .caret | .or => .bar
  | .land => .ampamp | .lor => .barbar

/-- The precedence table of C, tightest first (6.5.6 to 6.5.15). -/
def BinOp.prec : BinOp → Nat
  | .mul | .div | .mod => 1
  | .add | .sub => 2
  | .shl | .shr => 3
  | .lt | .gt | .le | .ge => 4
  | .eq | .ne => 5
  | .and => 6
  | .xor => 7
  | .or => 8
  | .land => 9
  | .lor => 10

def UnOp.tok : UnOp → Pun
  | .pos => .plus | .neg => .minus | .addr => .amp | .deref => .star
  | .not => .bang | .bnot => .tilde

def AsgOp.tok : AsgOp → Pun
  | .set => .asg | .mul => .mulAsg | .div => .divAsg | .mod => .modAsg
  | .add => .addAsg | .sub => .subAsg | .shl => .shlAsg | .shr => .shrAsg
  | .and => .andAsg | .xor => .xorAsg | .or => .orAsg

/-- The nonterminals.  `level 0` is a cast-expression, `level 1` a
multiplicative-expression, … `level 10` a logical-OR-expression. -/
inductive NT where
  | primary | postfix | unary | cast | level (k : Nat) | conditional
  | assignment | expression | arguments
  deriving DecidableEq, Repr

/-- The grammar. -/
inductive Derives (ext : Bool) : NT → List ETok → Tree → Prop where
  -- 6.5.1 primary expressions
  | var (n : Nat) : Derives ext .primary [.id n] (.var n)
  | num (n : Nat) : Derives ext .primary [.num n] (.num n)
  | paren {s : List ETok} {t : Tree} : Derives ext .expression s t →
      Derives ext .primary (.p .lpar :: (s ++ [.p .rpar])) t
  -- 6.5.2 postfix operators
  | ofPrimary {s : List ETok} {t : Tree} :
      Derives ext .primary s t → Derives ext .postfix s t
  | index {s e : List ETok} {t i : Tree} :
      Derives ext .postfix s t → Derives ext .expression e i →
      Derives ext .postfix (s ++ .p .lbrk :: (e ++ [.p .rbrk])) (.index t i)
  | call {s e : List ETok} {t a : Tree} :
      Derives ext .postfix s t → Derives ext .arguments e a →
      Derives ext .postfix (s ++ .p .lpar :: (e ++ [.p .rpar])) (.call t a)
  | call0 {s : List ETok} {t : Tree} :
      Derives ext .postfix s t →
      Derives ext .postfix (s ++ [.p .lpar, .p .rpar]) (.call t .noArgs)
  | member {s : List ETok} {t : Tree} (n : Nat) :
      Derives ext .postfix s t →
      Derives ext .postfix (s ++ [.p .dot, .id n]) (.member t n)
  | arrow {s : List ETok} {t : Tree} (n : Nat) :
      Derives ext .postfix s t →
      Derives ext .postfix (s ++ [.p .arrow, .id n]) (.arrow t n)
  | postInc {s : List ETok} {t : Tree} : Derives ext .postfix s t →
      Derives ext .postfix (s ++ [.p .inc]) (.postInc t)
  | postDec {s : List ETok} {t : Tree} : Derives ext .postfix s t →
      Derives ext .postfix (s ++ [.p .dec]) (.postDec t)
  | lastArg {s : List ETok} {t : Tree} : Derives ext .assignment s t →
      Derives ext .arguments s (.args t .noArgs)
  | moreArgs {s r : List ETok} {t u : Tree} : Derives ext .assignment s t →
      Derives ext .arguments r u →
      Derives ext .arguments (s ++ .p .comma :: r) (.args t u)
  -- 6.5.3 unary operators
  | ofPostfix {s : List ETok} {t : Tree} :
      Derives ext .postfix s t → Derives ext .unary s t
  | preInc {s : List ETok} {t : Tree} : Derives ext .unary s t →
      Derives ext .unary (.p .inc :: s) (.preInc t)
  | preDec {s : List ETok} {t : Tree} : Derives ext .unary s t →
      Derives ext .unary (.p .dec :: s) (.preDec t)
  | un {s : List ETok} {t : Tree} (o : UnOp) : Derives ext .cast s t →
      Derives ext .unary (.p o.tok :: s) (.un o t)
  | sizeE {s : List ETok} {t : Tree} : Derives ext .unary s t →
      Derives ext .unary (.sizeof_ :: s) (.sizeE t)
  | sizeT (n : Nat) :
      Derives ext .unary [.sizeof_, .p .lpar, .ty n, .p .rpar] (.sizeT n)
  | labelAddr (n : Nat) : Derives ext .unary [.p .ampamp, .id n] (.labelAddr n)
  -- 6.5.4 casts
  | ofUnary {s : List ETok} {t : Tree} :
      Derives ext .unary s t → Derives ext .cast s t
  | cast {s : List ETok} {t : Tree} (n : Nat) : Derives ext .cast s t →
      Derives ext .cast (.p .lpar :: .ty n :: .p .rpar :: s) (.cast n t)
  -- 6.5.5 to 6.5.14: the binary operators, left associative
  | ofCast {s : List ETok} {t : Tree} :
      Derives ext .cast s t → Derives ext (.level 0) s t
  | ofLevel {s : List ETok} {t : Tree} {k : Nat} : k < 10 →
      Derives ext (.level k) s t → Derives ext (.level (k + 1)) s t
  | bin {s r : List ETok} {t u : Tree} (o : BinOp) {k : Nat} : o.prec = k + 1 →
      Derives ext (.level (k + 1)) s t → Derives ext (.level k) r u →
      Derives ext (.level (k + 1)) (s ++ .p o.tok :: r) (.bin o t u)
  -- 6.5.15 the conditional operator, right associative
  | ofLor {s : List ETok} {t : Tree} :
      Derives ext (.level 10) s t → Derives ext .conditional s t
  | cond {s e r : List ETok} {c t u : Tree} : Derives ext (.level 10) s c →
      Derives ext .expression e t → Derives ext .conditional r u →
      Derives ext .conditional (s ++ .p .quest :: (e ++ .p .colon :: r)) (.cond c t u)
  | condOr {s r : List ETok} {c u : Tree} : Derives ext (.level 10) s c →
      Derives ext .conditional r u →
      Derives ext .conditional (s ++ .p .quest :: .p .colon :: r) (.condOr c u)
  -- 6.5.16 assignment, right associative
  | ofCond {s : List ETok} {t : Tree} :
      Derives ext .conditional s t → Derives ext .assignment s t
  | assign {s r : List ETok} {t u : Tree} (o : AsgOp) : Derives ext .unary s t →
      Derives ext .assignment r u →
      Derives ext .assignment (s ++ .p o.tok :: r) (.assign o t u)
  -- 6.5.17 comma.  The standard's rule is left recursive; grouping the commas
  -- to the right gives the same operands evaluated in the same order.
  | ofAssign {s : List ETok} {t : Tree} :
      Derives ext .assignment s t → Derives ext .expression s t
  | comma {s r : List ETok} {t u : Tree} : Derives ext .assignment s t →
      Derives ext .expression r u →
      Derives ext .expression (s ++ .p .comma :: r) (.comma t u)
  -- what slimcc accepts beyond C
  | assignCond {s r : List ETok} {t u : Tree} (o : AsgOp) : ext = true →
      Derives ext .conditional s t → Derives ext .assignment r u →
      Derives ext .assignment (s ++ .p o.tok :: r) (.assign o t u)
  | sizeEPrimary {s : List ETok} {t : Tree} : ext = true → Derives ext .unary s t →
      Derives ext .primary (.sizeof_ :: s) (.sizeE t)
  | sizeTPrimary (n : Nat) : ext = true →
      Derives ext .primary [.sizeof_, .p .lpar, .ty n, .p .rpar] (.sizeT n)

/-- The standard's left-recursive comma rule: `CommaLeft s ts` when `s` is an
expression whose comma-separated operands are `ts`. -/
inductive CommaLeft : List ETok → List Tree → Prop where
  | one {s : List ETok} {t : Tree} : Derives false .assignment s t → CommaLeft s [t]
  | more {s r : List ETok} {ts : List Tree} {t : Tree} : CommaLeft s ts →
      Derives false .assignment r t → CommaLeft (s ++ .p .comma :: r) (ts ++ [t])

/-- Well-formed trees: argument lists occur only as the second part of a call.
The flag says whether an argument list is expected. -/
def Tree.Wf : Bool → Tree → Prop
  | false, .var _ | false, .num _ | false, .labelAddr _ | false, .sizeT _ => True
  | false, .un _ a | false, .preInc a | false, .preDec a | false, .postInc a
  | false, .postDec a | false, .member a _ | false, .arrow a _ | false, .cast _ a
  | false, .sizeE a => a.Wf false
  | false, .bin _ a b | false, .index a b | false, .condOr a b | false, .assign _ a b
  | false, .comma a b => a.Wf false ∧ b.Wf false
  | false, .cond a b c => a.Wf false ∧ b.Wf false ∧ c.Wf false
  | false, .call f a => f.Wf false ∧ a.Wf true
  | true, .noArgs => True
  | true, .args a m => a.Wf false ∧ m.Wf true
  | _, _ => False

/-- The comma expression of some operands, evaluated in this order. -/
def commas : List Tree → Tree
  | [] => .noArgs
  | [t] => t
  | t :: ts => .comma t (commas ts)

/-- Tokens after which no C expression can go on: the closing brackets and the
colon of a conditional. -/
def endsExpr : List ETok → Prop
  | [] | .p .rpar :: _ | .p .rbrk :: _ | .p .colon :: _ => True
  | _ => False

/-- Tokens other than `sizeof` and the assignment operators. -/
def plainTok : ETok → Prop
  | .sizeof_ => False
  | .p x => ∀ o : AsgOp, x ≠ o.tok
  | _ => True

/-- `s` between parentheses. -/
def inParens (s : List ETok) : List ETok := .p .lpar :: (s ++ [.p .rpar])

/-- An expression written out with parentheses around every operator together
with its operands. -/
def Tree.print : Tree → List ETok
  | .var n => [.id n]
  | .num n => [.num n]
  | .labelAddr n => inParens [.p .ampamp, .id n]
  | .un o a => inParens (.p o.tok :: a.print)
  | .bin o a b => inParens (a.print ++ .p o.tok :: b.print)
  | .preInc a => inParens (.p .inc :: a.print)
  | .preDec a => inParens (.p .dec :: a.print)
  | .postInc a => inParens (a.print ++ [.p .inc])
  | .postDec a => inParens (a.print ++ [.p .dec])
  | .index a i => inParens (a.print ++ .p .lbrk :: (i.print ++ [.p .rbrk]))
  | .call f a => inParens (f.print ++ .p .lpar :: (a.print ++ [.p .rpar]))
  | .noArgs => []
  | .args a .noArgs => a.print
  | .args a m => a.print ++ .p .comma :: m.print
  | .member a n => inParens (a.print ++ [.p .dot, .id n])
  | .arrow a n => inParens (a.print ++ [.p .arrow, .id n])
  | .cast n a => inParens (.p .lpar :: .ty n :: .p .rpar :: a.print)
  | .sizeE a => inParens (.sizeof_ :: a.print)
  | .sizeT n => inParens [.sizeof_, .p .lpar, .ty n, .p .rpar]
  | .cond c a b => inParens (c.print ++ .p .quest :: (a.print ++ .p .colon :: b.print))
  | .condOr c b => inParens (c.print ++ .p .quest :: .p .colon :: b.print)
  | .assign o a b => inParens (a.print ++ .p o.tok :: b.print)
  | .comma a b => inParens (a.print ++ .p .comma :: b.print)

end Slimcc.Gram
