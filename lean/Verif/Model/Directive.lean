import Verif.Model.Macro
/-!
Model of the preprocessing directives and of the main loop of the preprocessor (preprocess.c:81-96,
171-199, 219-247, 328-490, 1083-1111, 1213-1448, 1926-1935).

There is one token list: the tokens of an included file are put in front of the tokens that follow the
`#include` line. The file a token belongs to is found by its position: `Files` holds, for every file that
has been entered and not left, the number of tokens left at its first token and after its last one.

Taken as given (`PEnv`): the evaluation of an integer constant expression, the search for a file, the
tokens of a file, and the checks of `#line`. `-E` and `-x assembler-with-cpp` are off. Not modelled:
`#embed`, the multi-line `#def`, and directives inside the arguments of a macro call.
-/
set_option autoImplicit false
namespace Slimcc.Pp
open Slimcc Slimcc.Lex Slimcc.PP Slimcc.Mac

abbrev Path := List Nat

/-- The keywords of directives. -/
abbrev kwIf : Name := [105, 102]
abbrev kwIfdef : Name := [105, 102, 100, 101, 102]
abbrev kwIfndef : Name := [105, 102, 110, 100, 101, 102]
abbrev kwElif : Name := [101, 108, 105, 102]
abbrev kwElifdef : Name := [101, 108, 105, 102, 100, 101, 102]
abbrev kwElifndef : Name := [101, 108, 105, 102, 110, 100, 101, 102]
abbrev kwElse : Name := [101, 108, 115, 101]
abbrev kwEndif : Name := [101, 110, 100, 105, 102]
abbrev kwDefine : Name := [100, 101, 102, 105, 110, 101]
abbrev kwUndef : Name := [117, 110, 100, 101, 102]
abbrev kwInclude : Name := [105, 110, 99, 108, 117, 100, 101]
abbrev kwIncludeNext : Name := [105, 110, 99, 108, 117, 100, 101, 95, 110, 101, 120, 116]
abbrev kwPragma : Name := [112, 114, 97, 103, 109, 97]
abbrev kwOnce : Name := [111, 110, 99, 101]
abbrev kwLine : Name := [108, 105, 110, 101]
abbrev kwError : Name := [101, 114, 114, 111, 114]
abbrev kwWarning : Name := [119, 97, 114, 110, 105, 110, 103]
abbrev kwEmbed : Name := [101, 109, 98, 101, 100]
abbrev kwDef : Name := [100, 101, 102]
abbrev kwDefined : Name := [100, 101, 102, 105, 110, 101, 100]
abbrev kwTrue : Name := [116, 114, 117, 101]
abbrev dots : Name := [46, 46, 46]
/-- `__VA_ARGS__` -/
abbrev kwVaArgs : Name := [95, 95, 86, 65, 95, 65, 82, 71, 83, 95, 95]

/-- preprocess.c:81-83 `is_hash`. -/
def isHash (t : PTok) : Bool := t.atBol && t.text == hash

/-- preprocess.c:87-94 `skip_line`; the warning is left out. The end of the list is at the beginning of a
line (tokenize.c:789). -/
def skipLine : List PTok → List PTok
  | [] => []
  | t :: r => if t.atBol then t :: r else skipLine r

/-- preprocess.c:235-247 `split_line`. -/
def splitLine : List PTok → List PTok × List PTok
  | [] => ([], [])
  | t :: r => if t.atBol then ([], t :: r) else (t :: (splitLine r).1, (splitLine r).2)

/-- preprocess.c:171-199 `skip_cond_incl`. The recycling of the tokens is left out. -/
def skipCond : Nat → List PTok → List PTok
  | _, [] => []
  | _, [_] => []
  | lvl, t :: u :: r =>
    if isHash t then
      if u.text = kwIf ∨ u.text = kwIfdef ∨ u.text = kwIfndef then skipCond (lvl + 1) r
      else if lvl ≠ 0 ∧ u.text = kwEndif then skipCond (lvl - 1) r
      else if lvl = 0 ∧ (u.text = kwEndif ∨ u.text = kwElse ∨ u.text = kwElif ∨ u.text = kwElifdef ∨ u.text = kwElifndef) then t :: u :: r
      else skipCond lvl (u :: r)
    else skipCond lvl (u :: r)

/-- The macro table, a map (hashmap.c, see Model/HashMap). The first entry of a name counts; `none` is a
deleted one. -/
abbrev Table := List (Name × Option Macro)

/-- preprocess.c:411-415 `find_macro`, of a name. -/
def Table.get (tb : Table) (s : Name) : Option Macro :=
  match tb with
  | [] => none
  | (n, m) :: tb => if n = s then m else Table.get tb s

/-- preprocess.c:417-422 `new_macro`, with the fields that are set later. -/
def Table.put (tb : Table) (s : Name) (m : Macro) : Table := (s, some m) :: tb

/-- preprocess.c:1482-1484 `undef_macro`. -/
def Table.del (tb : Table) (s : Name) : Table := (s, none) :: tb

/-- preprocess.c:47-51 `CondIncl`. `guard`: `tok->is_incl_guard`, with the file of `tok` and the name after
it. -/
structure Cond where
  isElse : Bool
  beenActive : Bool
  guard : Option (Path × Name)
  deriving DecidableEq

/-- The state of the preprocessor: `macros`, `cond_incl` (the top first), `pragma_once`, `include_guards`. -/
structure St where
  macros : Table
  conds : List Cond
  once : List Path
  guards : List (Path × Name)

/-- A file being read: tokens left at its start, tokens left after its end, and whether it is included. -/
structure FileE where
  path : Path
  start : Nat
  stop : Nat
  incl : Bool

/-- The files being read, the inner one first. -/
abbrev Files := List FileE

/-- The files that are left at a position. -/
def popFiles (n : Nat) : Files → Files
  | [] => []
  | f :: fs => if n ≤ f.stop then popFiles n fs else f :: fs

/-- What the macro table says of every name. -/
abbrev Macros := Name → Option Macro

structure PEnv where
  paste : PTok → PTok → Run PTok
  str : List PTok → Run PTok
  builtin : PTok → PTok
  strict : Bool
  /-- `opt_std >= STD_C23` -/
  c23 : Bool
  /-- `const_expr` on the whole list; whether it is not 0. -/
  constExpr : List PTok → Run Bool
  /-- `read_include_filename` and `search_include_paths2`, or `search_include_next` if the flag is set: the path
  for the operand of an `#include` in a file. -/
  resolve : Bool → Macros → Path → List PTok → Run Path
  /-- `tokenize_file`. -/
  file : Path → Option (List PTok)
  /-- Whether a line marker is well-formed. -/
  line : Macros → List PTok → Bool

/-- The part of the environment that macro expansion uses. -/
def PEnv.mac (E : PEnv) (tb : Macros) : Mac.Env :=
  { find := tb, paste := E.paste, str := E.str, builtin := E.builtin, strict := E.strict }

/-- preprocess.c:320-325 `to_int_token`. The value is in the text here. -/
def toInt (t : PTok) (b : Bool) : PTok := { t with kind := .intNum, text := if b then [49] else [48] }

/-- preprocess.c:345-359: after `defined`. The result and the rest. -/
def readDefined (tb : Macros) (r : List PTok) : Run (Bool × List PTok) :=
  match r with
  | [] => .fail
  | p :: r1 =>
    if p.text = lpar then
      match r1 with
      | [] => .fail
      | x :: r2 =>
        if x.kind ≠ .ident then .fail
        else do
          let r3 ← skip rpar r2
          .done ((tb x.text).isSome, r3)
    else if p.kind ≠ .ident then .fail
    else .done ((tb p.text).isSome, r1)

/-- preprocess.c:328-368 `read_const_expr`. -/
def readConst (E : PEnv) (tb : Macros) : Nat → Locks → List PTok → Run (List PTok)
  | 0, _, _ => .more
  | _ + 1, locks, [] => if locks.isEmpty then .done [] else .crash
  | f + 1, locks, t :: r => do
    match ← expandMacro (E.mac tb) (fun o ts => expand (E.mac tb) f o [] ts) [] locks t r with
    | .inr (l, ts) => readConst E tb f (popLocks ts.length l) ts
    | .inl t =>
      if t.text = kwDefined then do
        let (b, rest) ← readDefined tb r
        let out ← readConst E tb f (popLocks rest.length locks) rest
        .done (toInt t b :: out)
      else do
        let t := if E.c23 ∧ t.text = kwTrue then toInt t true else if t.kind = .ident then toInt t false else t
        let out ← readConst E tb f (popLocks r.length locks) r
        .done (t :: out)

/-- preprocess.c:371-389 `eval_const_expr`. -/
def evalConst (E : PEnv) (tb : Macros) (f : Nat) (line : List PTok) : Run Bool := do
  let ts ← readConst E tb f [] line
  if ts.isEmpty then .fail else E.constExpr ts

/-- preprocess.c:424-451 `read_macro_params`, after the parenthesis, with the parameters so far (the last
first): the parameters, whether the macro is variadic, and the rest. -/
def readParams : Nat → List Name → List PTok → Run (List Name × Bool × List PTok)
  | 0, _, _ => .more
  | f + 1, ps, ts =>
    if isText rpar ts then .done (ps.reverse, false, ts.drop 1)
    else do
      let ts ← (if ps.isEmpty then .done ts else skip comma ts : Run (List PTok))
      match ts with
      | [] => .fail
      | t :: r =>
        if t.kind ≠ .ident then do
          let r ← skip dots ts
          let r ← skip rpar r
          .done ((kwVaArgs :: ps).reverse, true, r)
        else if isText dots r then do
          let r ← skip rpar (r.drop 1)
          .done ((t.text :: ps).reverse, true, r)
        else readParams f (t.text :: ps) r

/-- preprocess.c:453-468 `read_macro_name`: the name, the macro without its body, and the rest. -/
def readMacroName (ts : List PTok) : Run (Name × Macro × List PTok) :=
  match ts with
  | [] => .fail
  | t :: r =>
    if t.kind ≠ .ident then .fail
    else if isText lpar r ∧ (∀ p ∈ r.head?, p.hasSpace = false) then do
      let (ps, va, rest) ← readParams (r.length + 1) [] (r.drop 1)
      .done (t.text, { isObj := false, params := ps, vaArg := va }, rest)
    else .done (t.text, { isObj := true }, r)

/-- preprocess.c:470-473 `read_macro_definition`: the table and the rest. -/
def define (tb : Table) (ts : List PTok) : Run (Table × List PTok) := do
  let (s, m, rest) ← readMacroName ts
  .done (tb.put s { m with body := (splitLine rest).1 }, (splitLine rest).2)

/-- preprocess.c:1458-1466: the replacement list of a `-D`: the first `=` is dropped, and the token after it has
white space before it; without one the list ends with `one` (`make_token("1", tok)`). The end of the list is not
a token here. -/
def cliBody (one : PTok) : List PTok → List PTok
  | [] => [{ one with hasSpace := true }]
  | t :: r =>
    if t.text = [61] then (match r with | [] => [] | u :: r => { u with hasSpace := true } :: r)
    else t :: cliBody one r

/-- preprocess.c:1450-1472 `define_macro_cli`, on the tokens of its argument. -/
def defineCli (one : PTok) (tb : Table) (ts : List PTok) : Run Table := do
  let (s, m, rest) ← readMacroName ts
  .done (tb.put s { m with body := cliBody one rest })

/-- A `-D` (its argument as tokens) or a `-U`. -/
inductive Opt where
  | D (ts : List PTok)
  | U (s : Name)

/-- main.c:276-283: the options in the order they are given. -/
def options (one : PTok) : Table → List Opt → Run Table
  | tb, [] => .done tb
  | tb, .D ts :: r => do
    let tb ← defineCli one tb ts
    options one tb r
  | tb, .U s :: r => options one (tb.del s) r

/-- `find_macro(tok)` for the operand of `#ifdef` and its like; it may be the end of the list. -/
def defd (tb : Table) (ts : List PTok) : Bool :=
  match ts with
  | t :: _ => decide (t.kind = .ident) && (tb.get t.text).isSome
  | [] => false

/-- preprocess.c:1103-1105: `#ifndef` with a name at the start of an included file. `n` is the number of tokens
left at the `#`. The condition that the file ends with `endif` is tested at that `endif`. -/
def guardAt (files : Files) (n : Nat) (ts : List PTok) : Option (Path × Name) :=
  match files, ts with
  | f :: _, t :: _ => if f.incl ∧ n = f.start ∧ t.kind = .ident then some (f.path, t.text) else none
  | _, _ => none

def assoc (p : Path) : List (Path × Name) → Option Name
  | [] => none
  | (q, s) :: r => if q = p then some s else assoc p r

/-- preprocess.c:1083-1111 `include_file`: the files and the list. -/
def includeFile (E : PEnv) (st : St) (files : Files) (p : Path) (rest : List PTok) : Run (Files × List PTok) :=
  if st.once.contains p then .done (files, rest)
  else if (match assoc p st.guards with | some g => (st.macros.get g).isSome | none => false) then .done (files, rest)
  else match E.file p with
  | none => .fail
  | some [] => .done (files, rest)
  | some ts => .done ({ path := p, start := ts.length + rest.length, stop := rest.length, incl := true } :: files, ts ++ rest)

/-- What follows an `#if` and its like whose condition is `active`. -/
def pushCond (st : St) (active : Bool) (g : Option (Path × Name)) (rest : List PTok) : St × List PTok :=
  ({ st with conds := { isElse := false, beenActive := active, guard := g } :: st.conds },
   if active then rest else skipCond 0 rest)

/-- preprocess.c:1316-1366: an `#elif` and its like; `test` is run if no branch has been taken, and yields the
condition and what follows the line. -/
def elifDir (st : St) (ts : List PTok) (test : Unit → Run (Bool × List PTok)) : Run (St × List PTok) :=
  match st.conds with
  | [] => .fail
  | c :: cs =>
    if c.isElse then .fail
    else if c.beenActive then .done ({ st with conds := { c with guard := none } :: cs }, skipCond 0 ts)
    else do
      let (active, rest) ← test ()
      if active then .done ({ st with conds := { c with guard := none, beenActive := true } :: cs }, rest)
      else .done ({ st with conds := { c with guard := none } :: cs }, skipCond 0 rest)

/-- preprocess.c:1248-1448 `directives`, at a `#` with `n` tokens left, on what follows it. -/
def directive (E : PEnv) (f : Nat) (st : St) (files : Files) (n : Nat) (ts : List PTok) : Run (St × Files × List PTok) :=
  match ts with
  | [] => .done (st, files, [])  -- a null directive at the end
  | t :: r =>
    let file : Path := match files with | f :: _ => f.path | [] => []
    if t.text = kwEmbed ∨ t.text = kwDef then .fail -- not modelled
    else if t.text = kwInclude ∨ t.text = kwIncludeNext then do
      let p ← E.resolve (t.text == kwIncludeNext) st.macros.get file (splitLine r).1
      let (fs, ts) ← includeFile E st files p (splitLine r).2
      .done (st, fs, ts)
    else if t.text = kwDefine then do
      let (tb, rest) ← define st.macros r
      .done ({ st with macros := tb }, files, rest)
    else if t.text = kwUndef then
      match r with
      | [] => .fail
      | x :: r1 => if x.kind ≠ .ident then .fail else .done ({ st with macros := st.macros.del x.text }, files, skipLine r1)
    else if t.text = kwIf then do
      let b ← evalConst E st.macros.get f (splitLine r).1
      let (st, rest) := pushCond st b none (splitLine r).2
      .done (st, files, rest)
    else if t.text = kwIfdef then
      let (st', rest) := pushCond st (defd st.macros r) none (skipLine (r.drop 1))
      .done (st', files, rest)
    else if t.text = kwIfndef then
      let (st', rest) := pushCond st (!defd st.macros r) (guardAt files n r) (skipLine (r.drop 1))
      .done (st', files, rest)
    else if t.text = kwElif then do
      let (st, rest) ← elifDir st ts (fun _ => do
        let b ← evalConst E st.macros.get f (splitLine r).1
        .done (b, (splitLine r).2))
      .done (st, files, rest)
    else if t.text = kwElifdef then do
      let (st, rest) ← elifDir st ts (fun _ => .done (defd st.macros r, if defd st.macros r then skipLine (r.drop 1) else ts))
      .done (st, files, rest)
    else if t.text = kwElifndef then do
      let (st, rest) ← elifDir st ts (fun _ => .done (!defd st.macros r, if defd st.macros r then ts else skipLine (r.drop 1)))
      .done (st, files, rest)
    else if t.text = kwElse then
      match st.conds with
      | [] => .fail
      | c :: cs =>
        if c.isElse then .fail
        else .done ({ st with conds := { c with guard := none, isElse := true } :: cs }, files,
          if c.beenActive then skipCond 0 (skipLine r) else skipLine r)
    else if t.text = kwEndif then
      match st.conds with
      | [] => .fail
      | c :: cs =>
        let st := { st with conds := cs }
        -- `tok` is the last token of the file, `cond->tok` its first `#ifndef`
        let st := (match c.guard, files with
          | some (p, s), f :: _ => if f.incl ∧ p = f.path ∧ r.length = f.stop then { st with guards := (p, s) :: st.guards } else st
          | _, _ => st)
        .done (st, files, skipLine r)
    else if t.text = kwLine then
      if E.line st.macros.get (splitLine r).1 then .done (st, files, (splitLine r).2) else .fail
    else if t.kind = .ppNum then
      if E.line st.macros.get (t :: (splitLine r).1) then .done (st, files, (splitLine r).2) else .fail
    else if t.text = kwPragma ∧ isText kwOnce r then
      .done ({ st with once := file :: st.once }, files, skipLine (r.drop 1))
    else if t.text = kwPragma then .done (st, files, skipLine r)
    else if t.text = kwError then .fail
    else if t.text = kwWarning then .done (st, files, skipLine r)
    else if t.atBol then .done (st, files, ts)
    else .fail

/-- preprocess.c:1213-1246 `preprocess2`: the tokens and the state at the end. The files that have been left are
dropped from `files` outside of expansions. -/
def pp (E : PEnv) : Nat → St → Locks → Files → List PTok → Run (List PTok × St)
  | 0, _, _, _, _ => .more
  | _ + 1, st, locks, _, [] => if locks.isEmpty then .done ([], st) else .crash
  | f + 1, st, locks, files, t :: r => do
    let files := if locks.isEmpty then popFiles (r.length + 1) files else files
    match ← expandMacro (E.mac st.macros.get) (fun o ts => expand (E.mac st.macros.get) f o [] ts) [] locks t r with
    | .inr (l, ts) => pp E f st (popLocks ts.length l) files ts
    | .inl t =>
      if isHash t && locks.isEmpty then do
        let (st, files, ts) ← directive E f st files (r.length + 1) r
        pp E f st [] files ts
      else do
        let (out, st) ← pp E f st (popLocks r.length locks) files r
        .done (t :: out, st)

/-- preprocess.c:1921-1931 `preprocess`, up to the pass over the result. -/
def preprocess (E : PEnv) (f : Nat) (tb : Table) (root : Path) (toks : List PTok) : Run (List PTok × St) := do
  let (out, st) ← pp E f { macros := tb, conds := [], once := [], guards := [] } [] [{ path := root, start := toks.length, stop := 0, incl := false }] toks
  if st.conds.isEmpty then .done (out, st) else .fail

end Slimcc.Pp
