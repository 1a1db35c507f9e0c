import Verif.Lemmas.InitDecide
import Verif.Lemmas.InitFlex

/-!
C55: a local variable is initialized as C prescribes.

`InitSpec.events` says which subobject each initializer of a list is for (designators, elided braces, strings,
unions and anonymous members included), `InitSpec.holds` what every subobject holds at the end: the part of a
value it was given, or zero bits.  `InitList.lvarInit` is the compiler on the tokens of the initializer: it gives
the assignments that follow the zeroing of the variable.  `fits s t` says that the expression `s` is of the
structure or union type `t`.
-/

set_option autoImplicit false

namespace Slimcc.Props

open InitList InitSpec InitL

/-- For every type, every initializer that C allows for it, and whatever follows it: if no initializer is for a
part of a subobject that another one gave a value as a whole, no list in braces for one of which a part was
given a value, and no member of a union is taken up again after another one (`Clean`), then the compiler takes
exactly the tokens of the initializer, and after its assignments every subobject holds what C says. Every
subobject is assigned to at most once. -/
theorem C55_local_initializer (fits : Src → Ty → Bool) (T : Ty) (i : Ini) (evs : List Ev) (tl : List Tok)
    (hs : Small T) (h : events fits T i = some evs) (hc : Clean T evs) :
    ∃ (A : List (Path × Val)) (N : Nat), (∀ (f : Nat), N ≤ f → lvarInit fits f T (i.toks ++ tl) = .ok (A, tl)) ∧
      assigned A = InitSpec.holds T evs ∧ A.Pairwise Off := by
  have hv := events_valid fits T i evs h
  obtain ⟨A, hA, hh, hp⟩ := create_after T evs _ hv (after_run T evs hv hc evs [] (by simp))
  obtain ⟨N, hN⟩ := init2_ok fits T i evs tl (fresh T) hs h (clean_sound T evs hv hc)
  refine ⟨A, N, ?_, hh, hp⟩
  intro f hf
  simp only [lvarInit, hN f hf, bind, Except.bind, hA]

/-- The same for an array whose length is left to the initializer. `n` is any length that is more than enough;
the length found is one more than the largest index that is initialized, and the elements hold what those of the
longer array would. -/
theorem C55_unknown_length (fits : Src → Ty → Bool) (n : Nat) (b : Ty) (i : Ini) (evs : List Ev) (tl : List Tok)
    (hs : Small (.arr n b)) (h : events fits (.arr n b) i = some evs) (hc : Clean (.arr n b) evs)
    (he : extent evs < n) :
    ∃ (A : List (Path × Val)) (N : Nat),
      (∀ (f : Nat), N ≤ f → lvarFlex fits f b (i.toks ++ tl) = .ok (extent evs, A, tl)) ∧
      assigned A = InitSpec.holds (.arr n b) evs ∧ A.Pairwise Off := by
  obtain ⟨N, hN⟩ := flex_ok fits n b i evs tl hs h hc he
  obtain ⟨A, M, hM, hh, hp⟩ := C55_local_initializer fits (.arr (extent evs) b) i evs tl
    (small_shrink n _ b (by omega) hs) (events_shrink fits n b i evs h he) (clean_shrink n _ b (by omega) evs hc)
  refine ⟨A, max N M, ?_, by rw [hh, holds_shrink n _ b (by omega) evs (Nat.le_refl _)], hp⟩
  intro f hf
  obtain ⟨σ, h1, h2⟩ := hN f (by omega)
  have h3 := hM (f + 1) (by omega)
  simp only [lvarInit, h1, bind, Except.bind] at h3
  simp only [lvarFlex, h2, bind, Except.bind]
  cases hcr : create (.arr (extent evs) b) [] σ with
  | error e => rw [hcr] at h3; cases h3
  | ok A' =>
    rw [hcr] at h3
    simp only [Except.ok.injEq, Prod.mk.injEq] at h3
    obtain ⟨rfl, _⟩ := h3
    rfl

/-! ### A case of it -/

/-- `struct { int a[2]; union { struct { int x, y; } s; long l; }; struct { char c[4]; int d; } z; int w; }` -/
def iniTy : Ty :=
  .agg false (.cons (some "a") (.arr 2 (.leaf (some 4)))
    (.cons none (.agg true (.cons (some "s") (.agg false (.cons (some "x") (.leaf (some 4))
        (.cons (some "y") (.leaf (some 4)) .nil))) (.cons (some "l") (.leaf (some 8)) .nil)))
    (.cons (some "z") (.agg false (.cons (some "c") (.arr 4 (.leaf (some 1))) (.cons (some "d") (.leaf (some 4)) .nil)))
    (.cons (some "w") (.leaf (some 4)) .nil))))

def iniE (n : Nat) : Ini := .e (.ex n)

/-- `{ 1, 2, {.s = {.y = 3}}, "ab", .z.d = 5, 6, .l = 7 }` -/
def iniList : Ini :=
  .br (.cons [] (iniE 1) (.cons [] (iniE 2)
    (.cons [] (.br (.cons [.dot "s"] (.br (.cons [.dot "y"] (iniE 3) .nil) false) .nil) false)
    (.cons [] (.e (.str 1 [97, 98, 0])) (.cons [.dot "z", .dot "d"] (iniE 5) (.cons [] (iniE 6)
    (.cons [.dot "l"] (iniE 7) .nil))))))) false

/-- What the list is for: the brace, `a[0]`, `a[1]`, the union, `s`, `s.y`, `z.c` and its elements, `z.d`, `w`,
`l`. -/
def iniEvs : List Ev :=
  [.brace [], .set [0, 0] (.of (.ex 1)), .set [0, 1] (.of (.ex 2)), .brace [1], .brace [1, 0],
   .set [1, 0, 1] (.of (.ex 3)), .brace [2, 0], .set [2, 0, 0] (.unit 97), .set [2, 0, 1] (.unit 98),
   .set [2, 0, 2] (.unit 0), .set [2, 1] (.of (.ex 5)), .set [3] (.of (.ex 6)), .set [1, 1] (.of (.ex 7))]

theorem iniList_events : events (fun _ _ => false) iniTy iniList = some iniEvs := by decide

theorem iniEvs_clean : Clean iniTy iniEvs := clean_ok _ _ (by decide)

/-- The list meets the conditions, and the union holds `l` alone at the end. -/
example : ∃ (A : List (Path × Val)) (N : Nat),
    (∀ (f : Nat), N ≤ f → lvarInit (fun _ _ => false) f iniTy (iniList.toks ++ [.comma]) = .ok (A, [.comma])) ∧
    assigned A = InitSpec.holds iniTy iniEvs ∧ A.Pairwise Off :=
  C55_local_initializer _ _ _ _ _ (small_ok _ (by decide)) iniList_events iniEvs_clean

example : InitSpec.holds iniTy iniEvs [1, 1] = some (.of (.ex 7), []) ∧ InitSpec.holds iniTy iniEvs [1, 0, 1] = none ∧
    InitSpec.holds iniTy iniEvs [2, 0, 1] = some (.unit 98, []) ∧ InitSpec.holds iniTy iniEvs [2, 0, 3] = none := by
  rw [holds_held]; decide

/-- `struct { int k, l; } a[] = { 1, 2, [4].l = 3, 4, [2] = 5 }` has six elements. -/
def iniOpen : Ini :=
  .br (.cons [] (iniE 1) (.cons [] (iniE 2) (.cons [.idx 4, .dot "l"] (iniE 3) (.cons [] (iniE 4)
    (.cons [.idx 2] (iniE 5) .nil))))) true

def iniOpenEvs : List Ev :=
  [.brace [], .set [0, 0] (.of (.ex 1)), .set [0, 1] (.of (.ex 2)), .set [4, 1] (.of (.ex 3)),
   .set [5, 0] (.of (.ex 4)), .set [2, 0] (.of (.ex 5))]

example : ∃ (A : List (Path × Val)) (N : Nat),
    (∀ (f : Nat), N ≤ f → lvarFlex (fun _ _ => false) f
      (.agg false (.cons (some "k") (.leaf (some 4)) (.cons (some "l") (.leaf (some 4)) .nil))) (iniOpen.toks ++ []) =
      .ok (6, A, [])) ∧
    assigned A = InitSpec.holds
      (.arr 100 (.agg false (.cons (some "k") (.leaf (some 4)) (.cons (some "l") (.leaf (some 4)) .nil)))) iniOpenEvs ∧
    A.Pairwise Off :=
  C55_unknown_length _ 100 _ iniOpen iniOpenEvs [] (small_ok _ (by decide)) (by decide) (clean_ok _ _ (by decide))
    (by decide)

/-! ### Where the compiler departs from C

`struct T { int k, l; }`, and `x` an expression of that type. -/

def iniT : Ty := .agg false (.cons (some "k") (.leaf (some 4)) (.cons (some "l") (.leaf (some 4)) .nil))
def iniX (s : Src) (t : Ty) : Bool := s = .ex 0 && t.cnt = 2
def iniOuter : Ty := .agg false (.cons (some "t") iniT .nil)

/-- `struct { struct T t; } o = { .t = x, .t.l = 41 }` (an example of the standard, 6.7.11): `t.k` ought to be
`x.k`, and is zero. -/
theorem C55_member_after_value_loses_the_rest :
    let i : Ini := .br (.cons [.dot "t"] (iniE 0) (.cons [.dot "t", .dot "l"] (iniE 41) .nil)) false
    let evs : List Ev := [.brace [], .set [0] (.of (.ex 0)), .set [0, 1] (.of (.ex 41))]
    let A : List (Path × Val) := [([0, 1], .of (.ex 41))]
    events iniX iniOuter i = some evs ∧ (∀ (f : Nat), lvarInit iniX (f + 20) iniOuter i.toks = .ok (A, [])) ∧
      InitSpec.holds iniOuter evs [0, 0] = some (.of (.ex 0), [0]) ∧ assigned A [0, 0] = none := by
  refine ⟨by decide, fun f => rfl, ?_, by decide⟩
  rw [holds_held]; decide

/-- `int a[1][2] = { [0] = {1, 2}, [0] = {3} }`: `a[0][1]` ought to be zero, and is 2. -/
theorem C55_second_braces_keep_the_first :
    let T : Ty := .arr 1 (.arr 2 (.leaf (some 4)))
    let i : Ini := .br (.cons [.idx 0] (.br (.cons [] (iniE 1) (.cons [] (iniE 2) .nil)) false)
      (.cons [.idx 0] (.br (.cons [] (iniE 3) .nil) false) .nil)) false
    let evs : List Ev := [.brace [], .brace [0], .set [0, 0] (.of (.ex 1)), .set [0, 1] (.of (.ex 2)), .brace [0],
      .set [0, 0] (.of (.ex 3))]
    let A : List (Path × Val) := [([0, 0], .of (.ex 3)), ([0, 1], .of (.ex 2))]
    events iniX T i = some evs ∧ (∀ (f : Nat), lvarInit iniX (f + 20) T i.toks = .ok (A, [])) ∧
      InitSpec.holds T evs [0, 1] = none ∧ assigned A [0, 1] = some (.of (.ex 2), []) := by
  refine ⟨by decide, fun f => rfl, ?_, by decide⟩
  rw [holds_held]; decide

/-- `struct T a[1] = { [0] = x, [0] = {1, 2} }`: `a[0].l` ought to be 2, and is `x.l`. -/
theorem C55_braces_after_value_ignored :
    let T : Ty := .arr 1 iniT
    let i : Ini := .br (.cons [.idx 0] (iniE 0)
      (.cons [.idx 0] (.br (.cons [] (iniE 1) (.cons [] (iniE 2) .nil)) false) .nil)) false
    let evs : List Ev := [.brace [], .set [0] (.of (.ex 0)), .brace [0], .set [0, 0] (.of (.ex 1)),
      .set [0, 1] (.of (.ex 2))]
    let A : List (Path × Val) := [([0], .of (.ex 0))]
    events iniX T i = some evs ∧ (∀ (f : Nat), lvarInit iniX (f + 20) T i.toks = .ok (A, [])) ∧
      InitSpec.holds T evs [0, 1] = some (.of (.ex 2), []) ∧ assigned A [0, 1] = some (.of (.ex 0), [1]) := by
  refine ⟨by decide, fun f => rfl, ?_, by decide⟩
  rw [holds_held]; decide

/-- The same with a union (`union { int k; int l; }`): the pointer to the member is used as one to an
expression. -/
theorem C55_union_braces_after_value_undefined :
    let T : Ty := .arr 1 (.agg true (.cons (some "k") (.leaf (some 4)) (.cons (some "l") (.leaf (some 4)) .nil)))
    let i : Ini := .br (.cons [.idx 0] (iniE 0) (.cons [.idx 0] (.br (.cons [] (iniE 1) .nil) false) .nil)) false
    (events iniX T i).isSome = true ∧ ∀ (f : Nat), lvarInit iniX (f + 20) T i.toks = .error .ub := by
  exact ⟨by decide, fun f => rfl⟩

/-- `int x = {3,};` and `int x = {};` are rejected. -/
theorem C55_scalar_braces_rejected (f : Nat) :
    lvarInit iniX (f + 20) (.leaf (some 4)) [.lb, .src (.ex 3), .comma, .rb] = .error .diag ∧
    lvarInit iniX (f + 20) (.leaf (some 4)) [.lb, .rb] = .error .diag :=
  ⟨rfl, rfl⟩

/-- `char a[4] = {"a",};` makes of the string's address the value of the first element. -/
theorem C55_string_with_comma_misread (f : Nat) :
    lvarInit iniX (f + 20) (.arr 4 (.leaf (some 1))) [.lb, .src (.str 1 [97, 0]), .comma, .rb] =
      .ok ([([0], .of (.str 1 [97, 0]))], []) := rfl

/-- `int a[2] = { [4294967297] = 1 };` initializes `a[1]`. -/
theorem C55_index_truncated (f : Nat) :
    lvarInit iniX (f + 20) (.arr 2 (.leaf (some 4))) [.lb, .idx (2 ^ 32 + 1), .eq, .src (.ex 1), .rb] =
      .ok ([([1], .of (.ex 1))], []) := rfl

/-- A designator beyond the end of the array is never accepted. -/
theorem C55_index_out_of_range_rejected (fits : Src → Ty → Bool) (n : Nat) (b : Ty) (v : Int) (r : List Tok) (f : Nat)
    (h : (n : Int) ≤ v) (hv : v < 2 ^ 31) (x : List (Path × Val) × List Tok) :
    lvarInit fits f (.arr n b) (.lb :: .idx v :: r) ≠ .ok x := by
  have ht : truncInt v = v := truncInt_small v (by omega) hv
  have hs : strForm b (.lb :: .idx v :: r) = none := by unfold strForm; split <;> simp_all
  intro hx
  unfold lvarInit at hx
  match f with
  | 0 => simp [init2, bind, Except.bind] at hx
  | 1 => simp [init2, hs, braced, bind, Except.bind] at hx
  | 2 => simp [init2, hs, braced, list, bind, Except.bind] at hx
  | 3 =>
    simp only [init2, hs, braced, list, bind, Except.bind, Ty.child] at hx
    by_cases h0 : 0 < n <;> simp [h0, headIs, isDesig, sepBy, bracedLoop, desig, bind, Except.bind] at hx
  | f + 4 =>
    simp only [init2, hs, braced, list, bind, Except.bind, Ty.child] at hx
    by_cases h0 : 0 < n <;> simp [h0, headIs, isDesig, sepBy, bracedLoop, desig, ht, h, bind, Except.bind] at hx

/-- A designator with the name of no member is never accepted. -/
theorem C55_unknown_member_rejected (fits : Src → Ty → Bool) (u : Bool) (ms : Mems) (nm : String) (r : List Tok) (f : Nat)
    (h : ms.find nm = none) (x : List (Path × Val) × List Tok) :
    lvarInit fits f (.agg u ms) (.lb :: .dot nm :: r) ≠ .ok x := by
  intro hx
  unfold lvarInit at hx
  cases h0 : (Ty.agg u ms).child 0 <;> cases u <;>
  match f with
  | 0 => simp [init2, bind, Except.bind] at hx
  | 1 => simp [init2, braced, bind, Except.bind] at hx
  | 2 => simp [init2, braced, list, bind, Except.bind] at hx
  | 3 =>
    simp only [init2, braced, list, bind, Except.bind, h0] at hx
    simp [ headIs, isDesig, sepBy, bracedLoop, desig, bind, Except.bind] at hx
  | f + 4 =>
    simp only [init2, braced, list, bind, Except.bind, h0] at hx
    simp [ headIs, isDesig, sepBy, bracedLoop, desig, h, bind, Except.bind] at hx

/-- `int a[2] = { [-1] = 1 };`: the compiler writes before its own array. -/
theorem C55_negative_index_undefined (f : Nat) :
    lvarInit iniX (f + 20) (.arr 2 (.leaf (some 4))) [.lb, .idx (-1), .eq, .src (.ex 1), .rb] = .error .ub := rfl

/-- `struct { struct {} e; int n; } v = { 1 };` is rejected (structures without members are an extension): the
expression is neither for the member without members nor for what follows it. -/
theorem C55_empty_member_rejected (f : Nat) :
    lvarInit iniX (f + 20) (.agg false (.cons (some "e") (.agg false .nil) (.cons (some "n") (.leaf (some 4)) .nil)))
      [.lb, .src (.ex 1), .rb] = .error .diag := rfl

end Slimcc.Props
