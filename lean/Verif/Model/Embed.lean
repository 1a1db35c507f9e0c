set_option autoImplicit false

/-!
Model of `#embed` and `__has_embed` (preprocess.c 243-270, 1113-1184, 1251-1257, 1601-1613; parse.c 1230-1248).

A token is its spelling: `equal` compares spellings only. A token list of the model has no end token; the end
of the list stands for the token of kind `TK_EOF`. The tokens given to these functions are those of the line
(or of the parenthesised operand of `__has_embed`) after the name of the file; how the name is read and looked
up (`read_filename`, `search_include_paths2`) is not modelled: `file` is the contents of the file found, or
`none` if there is no such file or it cannot be opened. `eval_const_expr` is a parameter `ev`, `none` where
it reports an error. Stream positions and `fread` are a list of bytes.
-/

namespace Slimcc.Embed

/-- What the functions return: a diagnostic, the value of `__has_embed`, or the tokens which replace the
directive and everything after it. -/
inductive Out where
  | error
  | has (n : Nat)
  | toks (l : List String)
  deriving DecidableEq, Repr

/-- parse.c 1230-1248 `skip_paren`: the tokens after the closing parenthesis. -/
def skipParen : Nat → List String → Option (List String)
  | _, [] => none
  | level, t :: ts =>
    if level = 0 ∧ t = ")" then some ts
    else skipParen (if t = "(" then level + 1 else if t = ")" then level - 1 else level) ts

/-- preprocess.c 244-266 `split_paren2`: the tokens before the closing parenthesis. The tokens `next` to be
linked after them are appended by the caller in the model. -/
def splitParen : Nat → List String → Option (List String)
  | _, [] => none
  | level, t :: ts =>
    if level = 0 ∧ t = ")" then some []
    else (splitParen (if t = "(" then level + 1 else if t = ")" then level - 1 else level) ts).map (t :: ·)

/-- preprocess.c 1114-1117: the four pointers to the first token of a parameter. -/
structure Seqs where
  limit : Option (List String) := none
  ifEmpty : Option (List String) := none
  pre : Option (List String) := none
  suf : Option (List String) := none
  deriving DecidableEq, Repr

/-- tokenize.c `skip`: the tokens after a given one, an error if it is another. -/
def skip (s : String) : List String → Option (List String)
  | t :: ts => if t = s then some ts else none
  | [] => none

/-- preprocess.c 1119-1130: the loop over the parameters. The first argument bounds the number of rounds;
`embedFile` gives one more than there are tokens. -/
def params : Nat → Seqs → List String → Option (Seqs × List String)
  | 0, _, _ => none
  | _ + 1, q, [] => some (q, [])
  | f + 1, q, t :: ts =>
    if t = "limit" then do
      let s ← skip "(" ts
      let r ← skipParen 0 s
      params f { q with limit := some s } r
    else if t = "if_empty" then do
      let s ← skip "(" ts
      let r ← skipParen 0 s
      params f { q with ifEmpty := some s } r
    else if t = "prefix" then do
      let s ← skip "(" ts
      let r ← skipParen 0 s
      params f { q with pre := some s } r
    else if t = "suffix" then do
      let s ← skip "(" ts
      let r ← skipParen 0 s
      params f { q with suf := some s } r
    else some (q, t :: ts)

/-- preprocess.c 1164-1174: the loop which reads the bytes. `started` is `cur != &head`. `new_num_token`
(317-319) prints the byte in decimal. `none` as limit stands for `!limit_seq`. -/
def readBytes : Option Int → Bool → List UInt8 → List String
  | _, _, [] => []
  | lim, started, b :: bs =>
    if lim.all (fun l => 0 < l) then
      (if started then [","] else []) ++ toString b.toNat :: readBytes (lim.map (· - 1)) true bs
    else []

/-- preprocess.c 1179-1182: the tokens of a parameter, none where it is not given. -/
def given : Option (List String) → Option (List String)
  | some s => splitParen 0 s
  | none => some []

/-- preprocess.c 1176-1183: what is put around the bytes. The memory of the tokens is not modelled. -/
def around (q : Seqs) (bytes cont : List String) : Option (List String) :=
  if bytes = [] then
    match q.ifEmpty with
    | some s => (splitParen 0 s).map (· ++ cont)
    | none => some cont
  else do
    let a ← given q.pre
    let z ← given q.suf
    some (a ++ bytes ++ z ++ cont)

/-- preprocess.c 1132-1134: the limit, 0 where there is none. -/
def limitOf (ev : List String → Option Int) (q : Seqs) : Option Int :=
  match q.limit with
  | some s => (splitParen 0 s).bind ev
  | none => some 0

/-- preprocess.c 1113-1184 `embed_file`. `cont` is `none` for `__has_embed` (1608), and the tokens of the
following lines for `#embed` (1256). -/
def embedFile (ev : List String → Option Int) (cont : Option (List String)) (tok : List String)
    (file : Option (List UInt8)) : Out :=
  match params (tok.length + 1) {} tok with
  | none => .error
  | some (q, rest) =>
    match limitOf ev q with
    | none => .error
    | some limit =>
      match cont with
      | none =>
        if rest ≠ [] then .has 0
        else match file with
          | none => .has 0
          | some bytes =>
            if bytes = [] ∨ (q.limit.isSome ∧ limit = 0) then .has 2 else .has 1
      | some cont =>
        if rest ≠ [] then .error
        else match file with
          | none => .error
          | some bytes =>
            match around q (readBytes (if q.limit.isSome then some limit else none) false bytes) cont with
            | some l => .toks l
            | none => .error

end Slimcc.Embed
