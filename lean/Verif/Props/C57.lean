import Verif.Lemmas.DeclaratorParse
/-!
C57: a declarator declares the name and gives it the type that C says.

`Spec/Declarator` has the grammar, the text and the type of declarators; `Model/Declarator` the parser.
-/
set_option autoImplicit false
namespace Slimcc.Props
open Slimcc.Declr

/-- The text of a declarator that C allows, with anything after it that can follow a declarator, is
read as that declarator: its name, the type it gives, and the same remaining text. -/
theorem C57_declarator (c23 gi : Bool) (d : Dcl) (cc par : Bool) (t : Ty) (rest : List Tok)
    (hok : d.Ok c23 gi cc par t) (hr : Follows rest) :
    declarator c23 gi (d.text ++ rest) cc t = .ok (d.type c23 t, d.declared, rest) :=
  reads_all c23 gi (d.text.length + 1) d (by omega) cc par t rest true _ hok hr (by simp) (by unfold fuelFor; omega)

/-- A type name (in a cast, in `sizeof`): the same without a name. -/
theorem C57_typeName (c23 gi : Bool) (d : Dcl) (cc par : Bool) (t : Ty) (rest : List Tok)
    (hok : d.Ok c23 gi cc par t) (hr : Follows rest) (habs : d.declared = none) :
    typeName c23 gi (d.text ++ rest) cc t = .ok (d.type c23 t, rest) := by
  have := reads_all c23 gi (d.text.length + 1) d (by omega) cc par t rest false (fuelFor (d.text ++ rest)) hok hr
    (fun _ => habs) (by unfold fuelFor; omega)
  simp only [typeName, this, bind, Except.bind]

/-- A type name has no name in it: an identifier is left, so that `(int *x)` is not a cast. -/
theorem C57_typeName_unnamed (c23 gi : Bool) (ps : List (List Qual)) (cc : Bool) (t : Ty) (x : Nat) (l : List Tok) :
    typeName c23 gi (ps.flatMap ptrText ++ .ident x :: l) cc t = .ok (ptrTo ps t, .ident x :: l) := by
  have h := pointers_of (.ident x :: l) (by simp) (by simp) ps (ps.flatMap ptrText ++ .ident x :: l).length t (by
    have := stars_length ps; rw [List.length_append]; omega)
  simp only [typeName, fuelFor]
  generalize ps.flatMap ptrText ++ .ident x :: l = y at h
  rw [show 8 * y.length + 8 = 8 * y.length + 6 + 1 + 1 by omega, declr, h]
  simp [typeSuffix, bind, Except.bind]

/-- So text has one meaning: two declarators written in the same way declare the same. -/
theorem C57_one_meaning (c23 gi : Bool) (d e : Dcl) (cc par : Bool) (t : Ty) (hd : d.Ok c23 gi cc par t)
    (he : e.Ok c23 gi cc par t) (h : d.text = e.text) :
    d.type c23 t = e.type c23 t ∧ d.declared = e.declared := by
  have h1 := C57_declarator c23 gi d cc par t [] hd (by simp [Follows])
  have h2 := C57_declarator c23 gi e cc par t [] he (by simp [Follows])
  rw [h, h2] at h1
  injection h1 with h1
  injection h1 with h1 h3
  injection h3 with h3
  exact ⟨h1.symm, h3.symm⟩

theorem typedef_one (c23 gi : Bool) (cc : Bool) (t : Ty) (rest : List Tok) (names : List Nat) (ds : List Dcl) (d : Dcl) (x : Nat)
    (f : Nat) (hd : d.Ok c23 gi cc false t) (hx : d.declared = some x)
    (ih : typedefLoop c23 gi f false ((if ds = [] then [.semi] else .comma :: listText ds) ++ rest) cc t =
      .ok (names.zip (ds.map fun d => d.type c23 t), rest)) :
    typedefLoop.oneTypedef c23 gi f (listText (d :: ds) ++ rest) cc t =
      .ok ((x :: names).zip ((d :: ds).map fun d => d.type c23 t), rest) := by
  have e : listText (d :: ds) ++ rest = d.text ++ ((if ds = [] then [.semi] else .comma :: listText ds) ++ rest) := by
    cases ds <;> simp [listText]
  have hf : Follows ((if ds = [] then [.semi] else .comma :: listText ds) ++ rest) := by
    cases ds <;> simp [Follows, Tok.follows]
  rw [e, typedefLoop.oneTypedef]
  simp only [C57_declarator c23 gi d cc false t _ hd hf, hx, ih, bind, Except.bind]
  rfl

theorem typedef_more (c23 gi : Bool) (cc : Bool) (t : Ty) (rest : List Tok) :
    ∀ (ds : List Dcl) (names : List Nat) (f : Nat), (∀ d ∈ ds, d.Ok c23 gi cc false t) →
    ds.map Dcl.declared = names.map some → ds.length + 1 ≤ f →
    typedefLoop c23 gi f false ((if ds = [] then [.semi] else .comma :: listText ds) ++ rest) cc t =
      .ok (names.zip (ds.map fun d => d.type c23 t), rest)
  | [], names, f, _, hn, hf => by
    obtain ⟨f, rfl⟩ : ∃ g, f = g + 1 := ⟨f - 1, by omega⟩
    simp [typedefLoop]
  | d :: ds, [], f, _, hn, hf => by simp at hn
  | d :: ds, x :: names, f, hok, hn, hf => by
    obtain ⟨f, rfl⟩ : ∃ g, f = g + 1 := ⟨f - 1, by omega⟩
    simp only [List.map_cons, List.cons.injEq] at hn
    have ih := typedef_more c23 gi cc t rest ds names f (fun d h => hok d (by simp [h])) hn.2 (by simp at hf; omega)
    have := typedef_one c23 gi cc t rest names ds d x f (hok d (by simp)) hn.1 ih
    simp only [reduceCtorEq, if_false, List.cons_append, typedefLoop, this]

theorem list_length : ∀ ds : List Dcl, ds.length ≤ (listText ds).length
  | [] => by simp
  | [d] => by simp [listText]
  | d :: e :: ds => by
    have := list_length (e :: ds)
    simp only [listText, List.length_append, List.length_cons] at *; omega

/-- `typedef T d₁, …, dₙ;` declares the name in each declarator with the type that this declarator gives:
the pointers, brackets and parameters of one have no effect on the next. -/
theorem C57_typedefs (c23 gi : Bool) (cc : Bool) (t : Ty) (rest : List Tok) (ds : List Dcl) (names : List Nat)
    (hok : ∀ d ∈ ds, d.Ok c23 gi cc false t) (hn : ds.map Dcl.declared = names.map some) (hne : ds ≠ []) :
    parseTypedef c23 gi (listText ds ++ rest) cc t = .ok (names.zip (ds.map fun d => d.type c23 t), rest) := by
  cases ds with
  | nil => exact absurd rfl hne
  | cons d ds =>
  cases names with
  | nil => simp at hn
  | cons x names =>
  simp only [List.map_cons, List.cons.injEq] at hn
  have hl := list_length (d :: ds)
  have ih := typedef_more c23 gi cc t rest ds names (listText (d :: ds) ++ rest).length (fun d h => hok d (by simp [h])) hn.2 (by
    simp only [List.length_append, List.length_cons] at *; omega)
  have := typedef_one c23 gi cc t rest names ds d x _ (hok d (by simp)) hn.1 ih
  rw [parseTypedef, typedefLoop.eq_def]
  have hs : ∀ r, listText (d :: ds) ++ rest ≠ .semi :: r := by
    intro r e
    cases d with
    | mk ps d =>
      have e1 : ∃ u, listText (.mk ps d :: ds) ++ rest = (ps.flatMap ptrText ++ d.text) ++ u := by
        cases ds <;> exact ⟨_, by simp [listText, Dcl.text]; rfl⟩
      obtain ⟨u, e1⟩ := e1
      rw [e1] at e
      cases ps with
      | cons p ps => simp [ptrText] at e
      | nil =>
        rcases direct_start d with rfl | ⟨k, l, e2, hk⟩
        · simp [Dcl.declared, Direct.declared] at hn
        · simp only [List.flatMap_nil, List.nil_append, e2, List.cons_append] at e
          injection e with e _
          subst e
          rcases hk with ⟨x, hx⟩ | hx | hx <;> cases hx
  dsimp only
  split
  · next heq => exact absurd heq (hs _)
  · exact this
  · contradiction
  · contradiction

/-! ### What is rejected -/

/-- A function cannot return an array, whatever is between its parentheses. -/
theorem C57_no_array_returned (c23 gi cc : Bool) (x : Nat) (l : List Tok) (t : Ty) (h : t.isArr = true) :
    declarator c23 gi (.ident x :: .lp :: l) cc t = .error .diag := by
  unfold declarator fuelFor
  rw [show 8 * (Tok.ident x :: .lp :: l).length + 8 = 8 * l.length + 21 + 1 + 1 + 1 by simp; omega]
  simp [declr, pointers, typeSuffix, funcParams, h, bind, Except.bind]

/-- At file scope an array cannot have a length that is found when the program runs. -/
theorem C57_no_variable_length (c23 gi : Bool) (x : Nat) (rest : List Tok) (t : Ty) (hr : Follows rest) :
    declarator c23 gi (.ident x :: .lb :: .expr none :: .rb :: rest) true t = .error .diag := by
  unfold declarator fuelFor
  rw [show 8 * (Tok.ident x :: .lb :: .expr none :: .rb :: rest).length + 8 = 8 * rest.length + 36 + 1 + 1 + 1 + 1 by simp; omega]
  have := more_none c23 gi (8 * rest.length + 36) rest true t (follows_lb hr)
  simp only [declr, pointers, List.length_cons, typeSuffix, startsType, Tok.isTypename, arrayDims, this, arrayOf, bind, Except.bind,
    if_true, Bool.false_eq_true, if_false]

/-! ### A declarator with everything -/

/-- `*(*const x[3])(void (int), int a[const static 4], ...)`: an array of three constant pointers to
functions that return a pointer. -/
def dclEx : Dcl :=
  .mk [[]] (.fn (.paren (.mk [[.const]] (.arr (.name 0) ⟨[], false, .expr (some 3)⟩)))
    (.list .void (.mk [] (.fn .abs (.list (.other {} 1) (.mk [] .abs) .done)))
      (.more (.other {} 1) (.mk [] (.arr (.name 1) ⟨[.const], true, .expr (some 4)⟩)) .dots)))

theorem dclEx_ok : dclEx.Ok true false true false (.spec (.other {} 1)) := by
  simp [dclEx, Dcl.Ok, Direct.Ok, Pars.Ok, ParTl.Ok, Dcl.isEmpty, Pars.isDots, ptrTo, Ty.isFn, Ty.isArr, Br.fine, Br.plain, Br.allowed,
    Br.of, Ty.isVla, soleVoid, Direct.last]

theorem dclEx_text : dclEx.text =
    [.star, .lp, .star, .qual .const, .ident 0, .lb, .expr (some 3), .rb, .rp,
     .lp, .spec .void, .lp, .spec (.other {} 1), .rp, .comma, .spec (.other {} 1), .ident 1, .lb, .qual .const, .static,
       .expr (some 4), .rb, .comma, .dots, .rp] := by
  simp [dclEx, Dcl.text, Direct.text, Pars.text, ParTl.text, ptrText, Br.text]

theorem dclEx_type : dclEx.type true (.spec (.other {} 1)) =
    .arr {} (.const 3) (.ptr { const := true }
      (.fn (.ptr {} (.spec (.other {} 1)))
        [(none, .ptr {} (.fn (.spec .void) [(none, .spec (.other {} 1))] false false)),
         (some 1, .ptr { const := true } (.spec (.other {} 1)))] true false)) := by
  simp [dclEx, Dcl.type, Direct.type, Pars.params, ParTl.params, Pars.variadic, ParTl.variadic, Pars.oldstyle, Br.of, ptrTo, Quals.of,
    Quals.add, Ty.unqual, Ty.adjust, Ty.isVla, Dcl.declared, Direct.declared]

example (rest : List Tok) : declarator true false (dclEx.text ++ .semi :: rest) true (.spec (.other {} 1)) =
    .ok (dclEx.type true (.spec (.other {} 1)), some 0, .semi :: rest) :=
  C57_declarator true false dclEx true false _ _ dclEx_ok (by simp [Follows, Tok.follows])

/-- `typedef int *a, b[2];` -/
example (rest : List Tok) : parseTypedef true false
    ([.star, .ident 0, .comma, .ident 1, .lb, .expr (some 2), .rb, .semi] ++ rest) true (.spec (.other {} 1)) =
    .ok ([(0, .ptr {} (.spec (.other {} 1))), (1, .arr {} (.const 2) (.spec (.other {} 1)))], rest) := by
  have := C57_typedefs true false true (.spec (.other {} 1)) rest
    [.mk [[]] (.name 0), .mk [] (.arr (.name 1) ⟨[], false, .expr (some 2)⟩)] [0, 1]
    (by simp [Dcl.Ok, Direct.Ok, Ty.isFn, Br.fine, Br.plain, Br.allowed, Br.of, Ty.isVla, ptrTo])
    (by simp [Dcl.declared, Direct.declared]) (by simp)
  simpa [listText, Dcl.text, Direct.text, ptrText, Br.text, Dcl.type, Direct.type, Br.of, ptrTo, Quals.of, Ty.isVla] using this

/-! ### Where slimcc departs from C -/

/-- What follows the declarator inside parentheses is not looked at: `(x junk)[3]` is accepted. -/
theorem C57_junk_accepted (c23 gi cc : Bool) (x n : Nat) (t : Ty) (ht : t.isVla = false) :
    declarator c23 gi [.lp, .ident x, .other n, .rp, .lb, .expr (some 3), .rb] cc t = .ok (.arr {} (.const 3) t, some x, []) := by
  simp [declarator, fuelFor, declr, pointers, startsParams, Tok.isTypename, skipParen, typeSuffix, startsType, arrayDims, moreDims,
    arrayOf, ht, bind, Except.bind]

/-- `int x[static const 3]`, which C allows for a parameter (6.7.7.1), is rejected. -/
theorem C57_static_first_rejected (c23 gi cc : Bool) (x : Nat) (t : Ty) :
    declarator c23 gi [.ident x, .lb, .static, .qual .const, .expr (some 3), .rb] cc t = .error .diag := by
  simp [declarator, fuelFor, declr, pointers, Tok.isTypename, typeSuffix, startsType, arrayDims, quals, skipStatic, bind, Except.bind]

/-- A function that returns a function, `(x(void))(void)`, is accepted. -/
theorem C57_function_returned (c23 gi cc : Bool) (x : Nat) (t : Ty) (ht : t.isArr = false) :
    declarator c23 gi [.lp, .ident x, .lp, .spec .void, .rp, .rp, .lp, .spec .void, .rp] cc t =
      .ok (.fn (.fn t.unqual [] false false) [] false false, some x, []) := by
  have h1 : (Ty.fn t.unqual [] false false).isArr = false := rfl
  have h2 : (Ty.fn t.unqual [] false false).unqual = .fn t.unqual [] false false := rfl
  simp [declarator, fuelFor, declr, pointers, startsParams, Tok.isTypename, skipParen, typeSuffix, funcParams, ht, bind, Except.bind,
    h1, h2, unqualified_eq t ht, unqualified_eq _ h1]

/-- In the initializer of an object of static storage duration, the parameter `int x[e]` is rejected when
`e` is not a constant; C allows it. -/
theorem C57_variable_parameter_rejected (c23 cc : Bool) (x y : Nat) (t : Ty) (s : Spec) (ht : t.isArr = false) :
    declarator c23 true [.ident y, .lp, .spec s, .ident x, .lb, .expr none, .rb, .rp] cc t = .error .diag := by
  simp [declarator, fuelFor, declr, pointers, Tok.isTypename, typeSuffix, funcParams, ht, paramLoop, param, startsType, arrayDims,
    moreDims, arrayOf, bind, Except.bind]

/-- The abstract declarator `(...)` of C23 is read as nothing: a parameter `int (...)` has type `int`. -/
theorem C57_dots_lost (c23 gi cc : Bool) (t : Ty) :
    declarator c23 gi [.lp, .dots, .rp] cc t = .ok (t, none, []) ∧
      (Dcl.mk [] (.fn .abs .dots)).text = [.lp, .dots, .rp] ∧
      (Dcl.mk [] (.fn .abs .dots)).type c23 t = .fn t.unqual [] true false := by
  refine ⟨?_, ?_, ?_⟩
  · simp [declarator, fuelFor, declr, pointers, startsParams, Tok.isTypename, skipParen, typeSuffix, bind, Except.bind]
  · simp [Dcl.text, Direct.text, Pars.text]
  · simp [Dcl.type, Direct.type, Pars.params, Pars.variadic, Pars.oldstyle, ptrTo]

end Slimcc.Props
