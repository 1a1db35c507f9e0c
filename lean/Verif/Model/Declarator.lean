import Verif.Spec.Declarator
/-!
Model of the declarator parser, parse.c:1091-1284, on lists of tokens.

Simplifications: the specifiers of a parameter are one token, so is the expression in brackets, with
its value if it is a constant (`is_const_expr`);
`cc` is `is_constant_context` (parse.c:231-233) and `gi` is `is_global_init_context`, which alone
decides inside a list of parameters, because that has a scope of its own; the identifier lists of C17 (parse.c:1027-1087) are
not modelled; attributes are not tokens. `empty ()` is a prototype (C23); before, the flag
`is_oldstyle` is set (`std23`). Recursion is bounded by fuel; `declarator` has enough.
-/
set_option autoImplicit false
namespace Slimcc.Declr

inductive Err where
  /-- a diagnostic -/
  | diag
  /-- an identifier list -/
  | oldStyle
  | fuel
  deriving DecidableEq, Repr

/-- parse.c:2203 `is_typename`. -/
def Tok.isTypename : Tok → Bool
  | .spec _ | .qual _ | .static => true
  | _ => false

/-- parse.c:1182-1196 `pointer_qualifiers`. -/
def quals : List Tok → Quals → Quals × List Tok
  | .qual q :: r, qs => quals r (qs.add q)
  | r, qs => (qs, r)

/-- parse.c:1221-1228 `pointers`. -/
def pointers : Nat → List Tok → Ty → Ty × List Tok
  | f + 1, .star :: r, t =>
    let (q, r) := quals r {}
    pointers f r (.ptr q t)
  | _, r, t => (t, r)

/-- parse.c:1230-1248 `skip_paren`. -/
def skipParen : Nat → List Tok → Option (List Tok)
  | _, [] => none
  | 0, .rp :: r => some r
  | n + 1, .rp :: r => skipParen n r
  | n, .lp :: r => skipParen (n + 1) r
  | n, _ :: r => skipParen n r

/-- type.c:278-290 with parse.c:1173-1179: `array_of` and `vla_of`. -/
def arrayOf (cc : Bool) (t : Ty) : Option Int → Except Err Ty
  | some n => if t.isVla then (if cc then .error .diag else .ok (.arr {} .var t)) else .ok (.arr {} (.const n) t)
  | none => if cc then .error .diag else .ok (.arr {} .var t)

/-- Sets the qualifiers of an array type (the second call in parse.c:1211). -/
def Ty.setQuals (q : Quals) : Ty → Ty
  | .arr _ n t => .arr q n t
  | t => t

/-- type.c:77-89 `unqual`. -/
def unqualified : Ty → Ty
  | .spec .void => .spec .void
  | .spec (.other _ id) => .spec (.other {} id)
  | .ptr _ t => .ptr {} t
  | .arr _ n t => .arr {} n t
  | .fn r ps v o => .fn r ps v o

/-- parse.c:1129-1142: the type of a parameter. -/
def paramTy (t : Ty) : Ty :=
  match t with
  | .arr q _ b => .ptr q b
  | .fn .. => .ptr {} t
  | _ => t

/-- The test in parse.c:1254: the parameters of a function begin here. -/
def startsParams : List Tok → Bool
  | tok :: _ => tok.isTypename || tok == .rp
  | [] => false

/-- The test in parse.c:1206. -/
def startsType : List Tok → Bool
  | tok :: _ => tok.isTypename
  | [] => false

/-- parse.c:1209. -/
def skipStatic : List Tok → List Tok
  | .static :: r => r
  | r => r

section
variable (std23 gi : Bool)

mutual
/-- parse.c:1250-1266 `declarator`; `named` says that `name_tok` is not NULL. -/
def declr : Nat → (named : Bool) → List Tok → (cc : Bool) → Ty → Except Err (Ty × Option Nat × List Tok)
  | 0, _, _, _, _ => .error .fuel
  | f + 1, named, l, cc, t =>
    match pointers l.length l t with
    | (t, .lp :: r) =>
      if startsParams r then do
        let (t, r) ← funcParams f r t
        .ok (t, none, r)
      else
        match skipParen 0 r with
        | none => .error .diag
        | some rest => do
          let (t, rest) ← typeSuffix f rest cc t
          let (t, name, _) ← declr f named r cc t
          .ok (t, name, rest)
    | (t, .ident x :: r) =>
      if named then do
        let (t, r) ← typeSuffix f r cc t
        .ok (t, some x, r)
      else do
        let (t, r) ← typeSuffix f (.ident x :: r) cc t
        .ok (t, none, r)
    | (t, r) => do
      let (t, r) ← typeSuffix f r cc t
      .ok (t, none, r)

/-- parse.c:1201-1218 `type_suffix`. -/
def typeSuffix : Nat → List Tok → (cc : Bool) → Ty → Except Err (Ty × List Tok)
  | 0, _, _, _ => .error .fuel
  | f + 1, .lp :: r, _, t => funcParams f r t
  | f + 1, .lb :: r, cc, t =>
    if startsType r then do
      let (t, rest) ← arrayDims f (skipStatic (quals r {}).2) cc t
      .ok (t.setQuals (quals r {}).1, rest)
    else arrayDims f r cc t
  | _ + 1, r, _, t => .ok (t, r)

/-- parse.c:1154-1180 `array_dimensions`. -/
def arrayDims : Nat → List Tok → (cc : Bool) → Ty → Except Err (Ty × List Tok)
  | 0, _, _, _ => .error .fuel
  | f + 1, .rb :: r, cc, t => do
    let (t, r) ← moreDims f r cc t
    .ok (.arr {} .unknown t, r)
  | f + 1, .star :: .rb :: r, cc, t => do
    let (t, r) ← moreDims f r cc t
    .ok (.arr {} .unknown t, r)
  | f + 1, .expr v :: .rb :: r, cc, t => do
    let (t, r) ← moreDims f r cc t
    let t ← arrayOf cc t v
    .ok (t, r)
  | _ + 1, _, _, _ => .error .diag

/-- The further brackets, parse.c:1157-1158, 1169-1170. -/
def moreDims : Nat → List Tok → (cc : Bool) → Ty → Except Err (Ty × List Tok)
  | 0, _, _, _ => .error .fuel
  | f + 1, .lb :: r, cc, t => arrayDims f r cc t
  | _ + 1, r, _, t => .ok (t, r)

/-- parse.c:1091-1107 `func_params`, type.c:267-276 `func_type`. -/
def funcParams : Nat → List Tok → Ty → Except Err (Ty × List Tok)
  | 0, _, _ => .error .fuel
  | f + 1, l, t =>
    if t.isArr then .error .diag
    else
      match l with
      | .dots :: .rp :: r => .ok (.fn (unqualified t) [] true false, r)
      | .spec .void :: .rp :: r => .ok (.fn (unqualified t) [] false false, r)
      | .rp :: r => .ok (.fn (unqualified t) [] false (!std23), r)
      | tok :: r =>
        if tok.isTypename then do
          let (ps, v, r) ← paramLoop f false (tok :: r)
          .ok (.fn (unqualified t) ps v false, r)
        else .error .oldStyle
      | [] => .error .oldStyle

/-- parse.c:1116-1145: the loop over the parameters (560-576 `comma_list`). -/
def paramLoop : Nat → Bool → List Tok → Except Err (List (Option Nat × Ty) × Bool × List Tok)
  | 0, _, _ => .error .fuel
  | f + 1, comma, l =>
    match l with
    | .rp :: r => .ok ([], false, r)
    | l =>
      if comma then
        match l with
        | .comma :: l => param f l
        | _ => .error .diag
      else param f l

/-- One parameter, parse.c:1117-1144. -/
def param : Nat → List Tok → Except Err (List (Option Nat × Ty) × Bool × List Tok)
  | 0, _ => .error .fuel
  | f + 1, l =>
    match l with
    | .dots :: .rp :: r => .ok ([], true, r)
    | .spec s :: r => do
      let (t, x, r) ← declr f true r gi (.spec s)
      let (ps, v, r) ← paramLoop f true r
      .ok ((x, paramTy t) :: ps, v, r)
    | _ => .error .diag
end

/-- The fuel that is enough for a list of tokens. -/
def fuelFor (l : List Tok) : Nat := 8 * l.length + 8

/-- parse.c:1250-1266 `declarator` with a name or without one. -/
def declarator (l : List Tok) (cc : Bool) (t : Ty) : Except Err (Ty × Option Nat × List Tok) :=
  declr std23 gi (fuelFor l) true l cc t

/-- parse.c:1281-1284 `typename`, after the specifiers. -/
def typeName (l : List Tok) (cc : Bool) (t : Ty) : Except Err (Ty × List Tok) := do
  let (t, _, r) ← declr std23 gi (fuelFor l) false l cc t
  .ok (t, r)

/-- parse.c:4491-4504, the loop of `parse_typedef`: the names that are declared with their types (without
`_Alignas`). Recursion is bounded by fuel. -/
def typedefLoop : Nat → (first : Bool) → List Tok → (cc : Bool) → Ty → Except Err (List (Nat × Ty) × List Tok)
  | 0, _, _, _, _ => .error .fuel
  | f + 1, first, l, cc, t =>
    match first, l with
    | _, .semi :: r => .ok ([], r)
    | true, l => oneTypedef f l cc t
    | false, .comma :: l => oneTypedef f l cc t
    | false, _ => .error .diag
where
  oneTypedef (f : Nat) (l : List Tok) (cc : Bool) (t : Ty) : Except Err (List (Nat × Ty) × List Tok) := do
    let (ty, name, r) ← declarator std23 gi l cc t
    match name with
    | none => .error .diag
    | some x => do
      let (ds, r) ← typedefLoop f false r cc t
      .ok ((x, ty) :: ds, r)

/-- parse.c:4488-4506 `parse_typedef`, after the specifiers. -/
def parseTypedef (l : List Tok) (cc : Bool) (t : Ty) : Except Err (List (Nat × Ty) × List Tok) :=
  typedefLoop std23 gi (l.length + 1) true l cc t

end
end Slimcc.Declr
