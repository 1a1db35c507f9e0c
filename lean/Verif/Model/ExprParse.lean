/-
The expression parser of parse.c, as a recursive-descent parser from tokens to
trees of operators and operands.

Simplifications, for the whole file:
* A tree records only which operands an operator was given.  The typing,
  conversions and constant folding that `new_add`, `cond_cast`, `to_assign` and
  the rest do on the node after it is built take no part in reading tokens, and
  are modelled elsewhere (Model/Expr).  Errors about types ("not a function",
  "lvalue required", "no such member") are therefore not raised here.
* A type name is a single token.  Compound literals, statement expressions,
  `_Generic`, `_Alignof` and the builtins of `primary` are left out.
* The C functions recurse on the input; here every call carries fuel.  `parse`
  supplies enough, and `none` from lack of fuel is shown not to occur.
* `none` is `error_tok`.
-/
import Verif.Spec.CGrammar
set_option autoImplicit false

namespace Slimcc.EP
open Slimcc.Gram

abbrev Res := Option (Tree × List ETok)

/-- The operator tests of the ten binary levels: `mul` parse.c:3594-3620 (1),
`add` 3573-3591 (2), `shift` 3479-3503 (3), `relational` 3446-3476 (4),
`equality` 3423-3443 (5), `bit_and` 3411-3420 (6), `bit_xor` 3400-3408 (7),
`bit_or` 3389-3397 (8), `log_and` 3378-3386 (9), `log_or` 3367-3375 (10).
SIMPLIFICATION: ND_SHR and ND_SAR, chosen by the type of the left operand, are
one operator here. -/
def opAt : Nat → ETok → Option BinOp
  | 1, .p .star => some .mul
  | 1, .p .slash => some .div
  | 1, .p .percent => some .mod
  | 2, .p .plus => some .add
  | 2, .p .minus => some .sub
  | 3, .p .shl => some .shl
  | 3, .p .shr => some .shr
  | 4, .p .lt => some .lt
  | 4, .p .le => some .le
  | 4, .p .gt => some .gt
  | 4, .p .ge => some .ge
  | 5, .p .eqeq => some .eq
  | 5, .p .ne => some .ne
  | 6, .p .amp => some .and
  | 7, .p .caret => some .xor
  | 8, .p .bar => some .or
  | 9, .p .ampamp => some .land
  | 10, .p .barbar => some .lor
  | _, _ => none

/-- The assignment operators tested by `assign`, parse.c:3292-3327. -/
def asgAt : ETok → Option AsgOp
  | .p .asg => some .set
  | .p .addAsg => some .add
  | .p .subAsg => some .sub
  | .p .mulAsg => some .mul
  | .p .divAsg => some .div
  | .p .modAsg => some .mod
  | .p .andAsg => some .and
  | .p .orAsg => some .or
  | .p .xorAsg => some .xor
  | .p .shlAsg => some .shl
  | .p .shrAsg => some .shr
  | _ => none

/-- The prefix operators `unary` applies to a cast expression,
parse.c:3635-3672. -/
def unAt : ETok → Option UnOp
  | .p .plus => some .pos
  | .p .minus => some .neg
  | .p .amp => some .addr
  | .p .star => some .deref
  | .p .bang => some .not
  | .p .tilde => some .bnot
  | _ => none

mutual

/-- `expr`, parse.c:2737-2747: `expr = assign ("," expr)?`. -/
def expr : Nat → List ETok → Res
  | 0, _ => none
  | f + 1, ts =>
    match assign f ts with
    | some (a, .p .comma :: r) =>
      match expr f r with
      | some (b, r') => some (.comma a b, r')
      | none => none
    | x => x

/-- `assign`, parse.c:3270-3329. -/
def assign : Nat → List ETok → Res
  | 0, _ => none
  | f + 1, ts =>
    match conditional f ts with
    | some (a, t :: r) =>
      match asgAt t with
      | some o =>
        match assign f r with
        | some (b, r') => some (.assign o a b, r')
        | none => none
      | none => some (a, t :: r)
    | x => x

/-- `conditional`, parse.c:3331-3364. -/
def conditional : Nat → List ETok → Res
  | 0, _ => none
  | f + 1, ts =>
    match binary f 10 ts with
    | some (c, .p .quest :: .p .colon :: r) =>
      match conditional f r with
      | some (b, r') => some (.condOr c b, r')
      | none => none
    | some (c, .p .quest :: r) =>
      match expr f r with
      | some (a, .p .colon :: r') =>
        match conditional f r' with
        | some (b, r'') => some (.cond c a b, r'')
        | none => none
      | _ => none
    | x => x

/-- The ten functions `mul` … `log_or`, parse.c:3367-3503 and 3573-3620: read
an operand of the level below, then loop on the operators of this level. -/
def binary : Nat → Nat → List ETok → Res
  | 0, _, _ => none
  | f + 1, 0, ts => cast f ts
  | f + 1, k + 1, ts =>
    match binary f k ts with
    | some (a, r) => binaryLoop f k a r
    | none => none

/-- The loop of those functions. -/
def binaryLoop : Nat → Nat → Tree → List ETok → Res
  | 0, _, _, _ => none
  | _ + 1, _, a, [] => some (a, [])
  | f + 1, k, a, t :: r =>
    match opAt (k + 1) t with
    | some o =>
      match binary f k r with
      | some (b, r') => binaryLoop f k (.bin o a b) r'
      | none => none
    | none => some (a, t :: r)

/-- `cast`, parse.c:3623-3632, with `is_typename_paren` 2206-2214. -/
def cast : Nat → List ETok → Res
  | 0, _ => none
  | f + 1, .p .lpar :: .ty n :: .p .rpar :: r =>
    match cast f r with
    | some (a, r') => some (.cast n a, r')
    | none => none
  | _ + 1, .p .lpar :: .ty _ :: _ => none
  | f + 1, ts => unary f ts

/-- `unary`, parse.c:3634-3697. -/
def unary : Nat → List ETok → Res
  | 0, _ => none
  | f + 1, .p .inc :: r =>
    match unary f r with
    | some (a, r') => some (.preInc a, r')
    | none => none
  | f + 1, .p .dec :: r =>
    match unary f r with
    | some (a, r') => some (.preDec a, r')
    | none => none
  | _ + 1, .p .ampamp :: .id n :: r => some (.labelAddr n, r)
  | _ + 1, [] => none
  | f + 1, t :: r =>
    match unAt t with
    | some o =>
      match cast f r with
      | some (a, r') => some (.un o a, r')
      | none => none
    | none =>
      match primary f (t :: r) with
      | some (a, r') => postfixOps f a r'
      | none => none

/-- `primary`, parse.c:4205-4236 for `(` and `sizeof`, 4404-4475 for
identifiers and constants. -/
def primary : Nat → List ETok → Res
  | 0, _ => none
  | f + 1, .p .lpar :: r =>
    match expr f r with
    | some (a, .p .rpar :: r') => some (a, r')
    | _ => none
  | _ + 1, .sizeof_ :: .p .lpar :: .ty n :: .p .rpar :: r => some (.sizeT n, r)
  | _ + 1, .sizeof_ :: .p .lpar :: .ty _ :: _ => none
  | f + 1, .sizeof_ :: r =>
    match unary f r with
    | some (a, r') => some (.sizeE a, r')
    | none => none
  | _ + 1, .id n :: r => some (.var n, r)
  | _ + 1, .num n :: r => some (.num n, r)
  | _ + 1, _ => none

/-- `postfix`, parse.c:3985-4041. -/
def postfixOps : Nat → Tree → List ETok → Res
  | 0, _, _ => none
  | f + 1, a, .p .lpar :: r =>
    match arguments f false r with
    | some (b, r') => postfixOps f (.call a b) r'
    | none => none
  | f + 1, a, .p .lbrk :: r =>
    match expr f r with
    | some (i, .p .rbrk :: r') => postfixOps f (.index a i) r'
    | _ => none
  | f + 1, a, .p .dot :: .id n :: r => postfixOps f (.member a n) r
  | _ + 1, _, .p .dot :: _ => none
  | f + 1, a, .p .arrow :: .id n :: r => postfixOps f (.arrow a n) r
  | _ + 1, _, .p .arrow :: _ => none
  | f + 1, a, .p .inc :: r => postfixOps f (.postInc a) r
  | f + 1, a, .p .dec :: r => postfixOps f (.postDec a) r
  | _ + 1, a, ts => some (a, ts)

/-- The argument loop of `funcall`, parse.c:4064-4089, with `comma_list`
561-576; the flag is `skip_comma`, set once an argument has been read. -/
def arguments : Nat → Bool → List ETok → Res
  | 0, _, _ => none
  | _ + 1, _, .p .rpar :: r => some (.noArgs, r)
  | f + 1, false, ts =>
    match assign f ts with
    | some (a, r) =>
      match arguments f true r with
      | some (m, r') => some (.args a m, r')
      | none => none
    | none => none
  | f + 1, true, .p .comma :: ts =>
    match assign f ts with
    | some (a, r) =>
      match arguments f true r with
      | some (m, r') => some (.args a m, r')
      | none => none
    | none => none
  | _ + 1, true, _ => none

end

/-- Fuel that is always enough for a token list. -/
def fuelFor (ts : List ETok) : Nat := 40 * ts.length + 40

/-- An expression that makes up all of `ts`. -/
def parse (ts : List ETok) : Option Tree :=
  match expr (fuelFor ts) ts with
  | some (t, []) => some t
  | _ => none

end Slimcc.EP
