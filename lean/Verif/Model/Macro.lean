import Verif.Model.PPTok
/-!
Model of macro expansion (preprocess.c:149-166, 493-606, 663-982).

A token list is the list of the tokens before its EOF token. `stop_tok` pointers, which say where a
locked macro is unlocked, are positions in the list that is being expanded; a position is given by the
number of tokens from there to the end. That number is never changed by the expansion, which replaces
only what is in front of it.

Recursion is bounded by fuel; running out of it is the outcome `more`, which stands for a run that has
not ended yet.

Not modelled: `__VA_TAIL__` (an extension), `_Pragma` and the `__has_...` operators, the special
treatment of `__attribute__` in `cdefs.h`, and directives inside macro arguments. The memory
management of tokens and the fields `origin` and `is_root`, which serve it and the diagnostics, are left
out.
-/
set_option autoImplicit false
namespace Slimcc.Mac
open Slimcc Slimcc.Lex Slimcc.PP

/-- `fail`: a diagnostic. `crash`: `internal_error()`. `more`: out of fuel. -/
inductive Run (α : Type) where
  | done (a : α)
  | fail
  | crash
  | more
  deriving DecidableEq, Repr

namespace Run
def bind {α β : Type} : Run α → (α → Run β) → Run β
  | done a, f => f a
  | fail, _ => fail
  | crash, _ => crash
  | more, _ => more
instance : Monad Run where
  pure := done
  bind := bind
@[simp] theorem bind_done {α β : Type} (a : α) (f : α → Run β) : (done a >>= f) = f a := rfl
@[simp] theorem bind_fail {α β : Type} (f : α → Run β) : ((fail : Run α) >>= f) = fail := rfl
@[simp] theorem bind_crash {α β : Type} (f : α → Run β) : ((crash : Run α) >>= f) = crash := rfl
@[simp] theorem bind_more {α β : Type} (f : α → Run β) : ((more : Run α) >>= f) = more := rfl
end Run

abbrev Name := List Nat

/-- preprocess.c:27-38 `struct Macro`, without the fields for locking. `params` has one name for each
of the `arg_cnt` arguments; the last one of a variadic macro is `__VA_ARGS__` or its GNU name. -/
structure Macro where
  isObj : Bool
  handler : Bool := false
  params : List Name := []
  vaArg : Bool := false
  body : List PTok := []

/-- The macro table (`find_macro`, preprocess.c:411-415, without the test of the token kind), what
comes from the tokenizer (`paste`, `stringize`), what the built-in dynamic macros yield, and
`opt_std != STD_NONE`. -/
structure Env where
  find : Name → Option Macro
  paste : PTok → PTok → Run PTok
  str : List PTok → Run PTok
  builtin : PTok → PTok
  strict : Bool

/-- `equal(tok, "(")` and so on; nothing is equal to the end of the list. -/
def isText (s : Name) (ts : List PTok) : Bool :=
  match ts with
  | t :: _ => t.text == s
  | [] => false

abbrev lpar : Name := [40]
abbrev rpar : Name := [41]
abbrev comma : Name := [44]
abbrev hash : Name := [35]
abbrev hashhash : Name := [35, 35]
/-- `__VA_OPT__` -/
abbrev vaOpt : Name := [95, 95, 86, 65, 95, 79, 80, 84, 95, 95]

/-- preprocess.c:663-666 `align_token`. -/
def align (t u : PTok) : PTok := { t with atBol := u.atBol, hasSpace := u.hasSpace }

def alignHead (ts : List PTok) (u : PTok) : List PTok :=
  match ts with
  | t :: r => align t u :: r
  | [] => []

/-- preprocess.c:142-147 `new_pmark`, of an EOF token. -/
def pmark : PTok := { kind := .pmark, text := [], atBol := true, hasSpace := false }

/-- preprocess.c:493-519 `read_macro_arg_one`, with the parenthesis level: the argument and the rest,
which starts with the `,` or `)` that ended it. -/
def readArgOne (readRest : Bool) : Nat → List PTok → Run (List PTok × List PTok)
  | _, [] => .fail
  | level, t :: r =>
    if level = 0 ∧ t.text = rpar then .done ([], t :: r)
    else if level = 0 ∧ readRest = false ∧ t.text = comma then .done ([], t :: r)
    else do
      let (a, rest) ← readArgOne readRest (if t.text = lpar then level + 1 else if t.text = rpar then level - 1 else level) r
      .done (t :: a, rest)

/-- `skip(tok, s)`. -/
def skip (s : Name) : List PTok → Run (List PTok)
  | [] => .fail
  | t :: r => if t.text = s then .done r else .fail

/-- preprocess.c:525-535, the loop of `read_macro_args` from argument `idx`, with `cnt` arguments
left: the arguments, `omit_comma`, and the rest. -/
def readArgsFrom (strict vaArg : Bool) : (cnt idx : Nat) → Bool → List PTok → Run (List (List PTok) × Bool × List PTok)
  | 0, _, omitC, ts => .done ([], omitC, ts)
  | cnt + 1, idx, omitC, ts => do
    let isVa := vaArg && cnt == 0
    let (omitC, ts) ← (if isVa && isText rpar ts then .done (!(strict && idx == 0), ts)
      else if idx ≠ 0 then do let ts ← skip comma ts; .done (omitC, ts)
      else .done (omitC, ts) : Run (Bool × List PTok))
    let (a, ts) ← readArgOne isVa 0 ts
    let (as, omitC, ts) ← readArgsFrom strict vaArg cnt (idx + 1) omitC ts
    .done (a :: as, omitC, ts)

/-- preprocess.c:521-539 `read_macro_args`. -/
def readArgs (strict : Bool) (m : Macro) (ts : List PTok) : Run (List (List PTok) × Bool × List PTok) := do
  let (as, omitC, ts) ← readArgsFrom strict m.vaArg m.params.length 0 false ts
  let ts ← skip rpar ts
  .done (as, omitC, ts)

/-- preprocess.c: `MacroArg`; `exp` is the outcome of `expand_arg` (555-560), which is run only if it
is needed. -/
structure Arg where
  raw : List PTok
  exp : Run (List PTok)

/-- preprocess.c:40-44 `MacroContext`. -/
structure Ctx where
  params : List Name
  vaArg : Bool
  args : List Arg
  omitC : Bool

/-- preprocess.c:582-590: the first parameter of that name. -/
def findIdx (s : Name) : List Name → Nat → Option Nat
  | [], _ => none
  | p :: ps, i => if p = s then some i else findIdx s ps (i + 1)

/-- preprocess.c:562-570 `has_non_empty_va_arg`. -/
def nonEmptyVa (c : Ctx) : Run Bool :=
  if c.vaArg then
    match c.args[c.params.length - 1]? with
    | some a => do
      let e ← a.exp
      .done (!e.isEmpty)
    | none => .crash
  else .done false

/-- What `find_arg` yields: nothing, or an argument with its index (none for `__VA_OPT__`) and the
rest. -/
abbrev Found := Option (Arg × Option Nat × List PTok)

mutual
/-- preprocess.c:572-606 `find_arg`. The fuel `n` bounds the nesting of `__VA_OPT__` and the length of
the list. -/
def findArg (E : Env) (c : Ctx) : Nat → List PTok → Run Found
  | _, [] => .done none
  | n, t :: r =>
    if t.kind ≠ .ident then .done none
    else match findIdx t.text c.params 0 with
    | some i =>
      match c.args[i]? with
      | some a => .done (some (a, some i, r))
      | none => .crash
    | none =>
      if t.text = vaOpt ∧ isText lpar r = true then
        match n with
        | 0 => .more
        | n + 1 => do
          let (a, rest) ← readArgOne true 0 (r.drop 1)
          let ne ← nonEmptyVa c
          let a ← (if ne then subst E c n [] a else .done [])
          .done (some ({ raw := a, exp := .done a }, none, rest.drop 1))
      else .done none
/-- preprocess.c:685-806 `subst`; `acc` is the result so far, the last token (`cur`) first. -/
def subst (E : Env) (c : Ctx) : Nat → List PTok → List PTok → Run (List PTok)
  | _, acc, [] => .done acc.reverse
  | 0, _, _ => .more
  | n + 1, acc, t :: r =>
    -- lines 693-700
    if t.text = hash then do
      match ← findArg E c n r with
      | none => .fail
      | some (a, _, rest) => do
        let s ← E.str a.raw
        subst E c n (align s t :: acc) rest
    else do
      -- lines 705-717
      let gnu ← (if t.text = comma ∧ isText hashhash r = true ∧ c.vaArg = true then do
        match ← findArg E c n (r.drop 1) with
        | some (_, some i, _) => .done (decide (i = c.params.length - 1))
        | _ => .done false
        else .done false : Run Bool)
      if gnu then
        if c.omitC then subst E c n acc (r.drop 2)
        else subst E c n (t :: acc) (r.drop 1)
      -- lines 719-745
      else if t.text = hashhash then
        match acc, r with
        | [], _ => .fail
        | _, [] => .fail
        | cur :: acc', u :: r' =>
          if cur.kind = .pmark then subst E c n (cur :: acc') (u :: r')
          else do
            match ← findArg E c n (u :: r') with
            | some (a, _, rest) =>
              match a.raw with
              | [] => subst E c n (cur :: acc') rest
              | x :: xs =>
                if x.kind ≠ .pmark then do
                  let y ← E.paste cur x
                  subst E c n (xs.reverse ++ y :: acc') rest
                else subst E c n (xs.reverse ++ cur :: acc') rest
            | none => do
              let y ← E.paste cur u
              subst E c n (y :: acc') r'
      else do
        -- lines 747-764
        match ← findArg E c n (t :: r) with
        | some (a, _, rest) => do
          let ts ← (if isText hashhash rest then .done a.raw else a.exp : Run (List PTok))
          if ts.isEmpty then subst E c n (pmark :: acc) rest
          else subst E c n ((alignHead ts t).reverse ++ acc) rest
        -- lines 798-800
        | none => subst E c n (t :: acc) r
end

/-- preprocess.c:808-829 `insert_objlike`, before the list is joined with `stop_tok`; `acc` as in
`subst`. -/
def insertObj (E : Env) : List PTok → List PTok → Run (List PTok)
  | acc, [] => .done acc.reverse
  | acc, [t] => if t.text = hashhash then .fail else .done (t :: acc).reverse
  | acc, t :: u :: r =>
    if t.text = hashhash then
      match acc with
      | [] => .fail
      | cur :: acc' => do
        let y ← E.paste cur u
        insertObj E (y :: acc') r
    else insertObj E (t :: acc) (u :: r)

/-- A locked macro (preprocess.c:149-154 `push_macro_lock`) and the position of its `stop_tok`. -/
abbrev Locks := List (Name × Nat)

/-- preprocess.c:156-161 `pop_macro_lock` at the position with `n` tokens left. -/
def popLocks (n : Nat) : Locks → Locks
  | [] => []
  | l :: ls => if l.2 = n then popLocks n ls else l :: ls

/-- `m->is_locked`: locked in this list, or in one that is being expanded around it. -/
def isLocked (outer : List Name) (locks : Locks) (s : Name) : Bool :=
  outer.contains s || (locks.map Prod.fst).contains s

/-- `find_macro`. -/
def Env.look (E : Env) (t : PTok) : Option Macro := if t.kind = .ident then E.find t.text else none

/-- preprocess.c:865-870: a name that is locked where it stands is not expanded later. -/
def paint (E : Env) (outer : List Name) (locks : Locks) (t : PTok) : PTok :=
  if (E.look t).isSome && isLocked outer locks t.text then { t with noExpand := true } else t

/-- preprocess.c:850-882 `prepare_funclike_args`, from the token after the first parenthesis: the
tokens up to and with the closing parenthesis, the rest and the locks that are left. -/
def prepare (E : Env) (outer : List Name) : Nat → Locks → List PTok → Run (List PTok × List PTok × Locks)
  | _, _, [] => .fail
  | lvl, locks, t :: r =>
    let locks := popLocks (r.length + 1) locks
    let t' := paint E outer locks t
    if lvl = 0 ∧ t.text = rpar then .done ([t'], r, locks)
    else do
      let (as, rest, locks) ← prepare E outer (if t.text = lpar then lvl + 1 else if t.text = rpar then lvl - 1 else lvl) locks r
      .done (t' :: as, rest, locks)

/-- preprocess.c:956-959: nothing was inserted, the next token inherits the flags. -/
def orFlags (ts : List PTok) (u : PTok) : List PTok :=
  match ts with
  | t :: r => { t with atBol := t.atBol || u.atBol, hasSpace := t.hasSpace || u.hasSpace } :: r
  | [] => []

/-- preprocess.c:951-959: what comes after the insertion of `b` for the macro name `t`: the locks and the
list. -/
def enter (locks : Locks) (t : PTok) (b rest : List PTok) : Locks × List PTok :=
  if b.isEmpty then (locks, orFlags rest t)
  else ((t.text, rest.length) :: locks, alignHead b t ++ rest)

/-- preprocess.c:902-982 `expand_macro` on the token `t` with the rest `r`: the token, perhaps marked, if
it is left as it is, or else the locks and the list after the replacement. `exp` expands a list
(`expand_tok`) with the given macros locked. -/
def expandMacro (E : Env) (exp : List Name → List PTok → Run (List PTok)) (outer : List Name) (locks : Locks) (t : PTok) (r : List PTok) :
    Run (PTok ⊕ (Locks × List PTok)) :=
  if t.noExpand then .done (.inl t)
  else match E.look t with
  | none => .done (.inl t)
  | some m =>
    if isLocked outer locks t.text then .done (.inl { t with noExpand := true })
    else if m.handler then .done (.inr (locks, align (E.builtin t) t :: r))
    else if m.isObj then do
      let b ← insertObj E [] m.body
      .done (.inr (enter locks t b r))
    else if isText lpar r then do
      let (as, rest, locks) ← prepare E outer 0 (popLocks r.length locks) (r.drop 1)
      let (args, omitC, _) ← readArgs E.strict m as
      let c : Ctx := { params := m.params, vaArg := m.vaArg, omitC := omitC,
                       args := args.map fun a => { raw := a, exp := exp (locks.map Prod.fst ++ outer) a } }
      let b ← subst E c m.body.length [] m.body
      .done (.inr (enter locks t (b.filter fun t => t.kind ≠ .pmark) rest))
    else .done (.inl t)

/-- preprocess.c:541-553 `expand_tok`: the expansion of a list. The root list is expanded in the same way
by `preprocess2` (1213-1246) as far as there are no directives. -/
def expand (E : Env) : Nat → List Name → Locks → List PTok → Run (List PTok)
  | 0, _, _, _ => .more
  | _ + 1, _, locks, [] => if locks.isEmpty then .done [] else .crash
  | f + 1, outer, locks, t :: r => do
    match ← expandMacro E (fun o ts => expand E f o [] ts) outer locks t r with
    | .inl t' => do
      let out ← expand E f outer (popLocks r.length locks) r
      .done (t' :: out)
    | .inr (l, ts) => expand E f outer (popLocks ts.length l) ts

end Slimcc.Mac
