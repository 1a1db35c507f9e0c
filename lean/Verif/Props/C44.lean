/-
C44: expressions are grouped as the grammar of C groups them.

`Derives false .expression ts t` (Spec/CGrammar) is C's expression grammar:
the tokens `ts` form an expression and `t` is how it groups operators and
operands.  `parse ts` is the parser of the model.
-/
import Verif.Lemmas.ExprComplete
import Verif.Lemmas.ExprFuel
set_option autoImplicit false

namespace Slimcc.Props
open Slimcc.Gram Slimcc.EP Slimcc.EPL

/-- Every expression of the C grammar is accepted, and grouped as the grammar
groups it. -/
theorem C44_groups_as_C (ts : List ETok) (t : Tree)
    (h : Derives false .expression ts t) : parse ts = some t := by
  have c : Plain expr 20 13 ts t := claim h
  have := c (fuelFor ts) [] (by unfold fuelFor; omega) (stop_nil _)
  rw [List.append_nil] at this
  unfold parse
  generalize expr (fuelFor ts) ts = x at *
  subst this
  rfl

/-- An expression inside something larger: the parser stops exactly where the
expression does. -/
theorem C44_stops_at_its_end (s rest : List ETok) (t : Tree)
    (h : Derives false .expression s t) (hr : endsExpr rest) :
    expr (fuelFor (s ++ rest)) (s ++ rest) = some (t, rest) := by
  refine claim h _ _ (by unfold fuelFor; simp; omega) ?_
  rintro a r rfl
  cases a with
  | p x => cases x <;> first | exact hr.elim | decide
  | _ => exact hr.elim

/-- What is accepted is an expression of C, or of C with the two liberties of
slimcc, and is grouped accordingly. -/
theorem C44_accepts_only (ts : List ETok) (t : Tree) (h : parse ts = some t) :
    Derives true .expression ts t := by
  unfold parse at h
  split at h
  · rename_i u e
    cases h
    obtain ⟨s, hs, d⟩ := (sound _).expr _ _ _ e
    simp only [List.append_nil] at hs
    rw [hs]
    exact d
  · cases h

theorem strict_of_plain {nt : NT} {s : List ETok} {t : Tree} (d : Derives true nt s t)
    (h : ∀ x ∈ s, plainTok x) : Derives false nt s t := by
  induction d with
  | var n => exact .var n
  | num n => exact .num n
  | paren d ih => exact .paren (ih fun x hx => h x (by simp [hx]))
  | ofPrimary d ih => exact .ofPrimary (ih h)
  | index d _ ih ie =>
    exact .index (ih fun x hx => h x (by simp [hx])) (ie fun x hx => h x (by simp [hx]))
  | call d _ ih ie =>
    exact .call (ih fun x hx => h x (by simp [hx])) (ie fun x hx => h x (by simp [hx]))
  | call0 d ih => exact .call0 (ih fun x hx => h x (by simp [hx]))
  | member n d ih => exact .member n (ih fun x hx => h x (by simp [hx]))
  | arrow n d ih => exact .arrow n (ih fun x hx => h x (by simp [hx]))
  | postInc d ih => exact .postInc (ih fun x hx => h x (by simp [hx]))
  | postDec d ih => exact .postDec (ih fun x hx => h x (by simp [hx]))
  | lastArg d ih => exact .lastArg (ih h)
  | moreArgs d _ ih ie =>
    exact .moreArgs (ih fun x hx => h x (by simp [hx])) (ie fun x hx => h x (by simp [hx]))
  | ofPostfix d ih => exact .ofPostfix (ih h)
  | preInc d ih => exact .preInc (ih fun x hx => h x (by simp [hx]))
  | preDec d ih => exact .preDec (ih fun x hx => h x (by simp [hx]))
  | un o d ih => exact .un o (ih fun x hx => h x (by simp [hx]))
  | sizeE d ih => exact (h .sizeof_ (by simp)).elim
  | sizeT n => exact (h .sizeof_ (by simp)).elim
  | labelAddr n => exact .labelAddr n
  | ofUnary d ih => exact .ofUnary (ih h)
  | cast n d ih => exact .cast n (ih fun x hx => h x (by simp [hx]))
  | ofCast d ih => exact .ofCast (ih h)
  | ofLevel hk d ih => exact .ofLevel hk (ih h)
  | bin o hp d _ ih ie =>
    exact .bin o hp (ih fun x hx => h x (by simp [hx])) (ie fun x hx => h x (by simp [hx]))
  | ofLor d ih => exact .ofLor (ih h)
  | cond d _ _ ih ie ir =>
    exact .cond (ih fun x hx => h x (by simp [hx])) (ie fun x hx => h x (by simp [hx]))
      (ir fun x hx => h x (by simp [hx]))
  | condOr d _ ih ir =>
    exact .condOr (ih fun x hx => h x (by simp [hx])) (ir fun x hx => h x (by simp [hx]))
  | ofCond d ih => exact .ofCond (ih h)
  | assign o d _ ih ie => exact (h (.p o.tok) (by simp) o rfl).elim
  | ofAssign d ih => exact .ofAssign (ih h)
  | comma d _ ih ie =>
    exact .comma (ih fun x hx => h x (by simp [hx])) (ie fun x hx => h x (by simp [hx]))
  | assignCond o _ d _ ih ie => exact (h (.p o.tok) (by simp) o rfl).elim
  | sizeEPrimary _ d ih => exact (h .sizeof_ (by simp)).elim
  | sizeTPrimary n _ => exact (h .sizeof_ (by simp)).elim

/-- Without `sizeof` and assignments, acceptance and grouping are exactly those
of C: in particular for all sequences of binary, conditional and comma
operators with their operands. -/
theorem C44_exactly_C (ts : List ETok) (t : Tree) (h : ∀ x ∈ ts, plainTok x) :
    parse ts = some t ↔ Derives false .expression ts t :=
  ⟨fun e => strict_of_plain (C44_accepts_only ts t e) h, C44_groups_as_C ts t⟩

/-- The grammar gives an expression one grouping. -/
theorem C44_one_grouping (ts : List ETok) (t u : Tree)
    (h : Derives false .expression ts t) (h' : Derives false .expression ts u) : t = u := by
  have a := C44_groups_as_C ts t h
  rw [C44_groups_as_C ts u h'] at a
  exact (Option.some.inj a).symm

/-- The bound on recursion in the model is never what makes it reject: more
fuel gives the same answer on every input. -/
theorem C44_fuel_suffices (ts : List ETok) (f : Nat) (h : fuelFor ts ≤ f) :
    expr f ts = expr (fuelFor ts) ts := by
  unfold fuelFor at *
  exact (stable f).expr _ ts (by omega) (by omega)

/-- Two binary operators: the tighter one, or of equals the left one, takes the
operand between them. -/
theorem C44_two_operators (o₁ o₂ : BinOp) (a b c : Nat) :
    parse [.id a, .p o₁.tok, .id b, .p o₂.tok, .id c] =
      some (if o₁.prec ≤ o₂.prec
        then .bin o₂ (.bin o₁ (.var a) (.var b)) (.var c)
        else .bin o₁ (.var a) (.bin o₂ (.var b) (.var c))) := by
  have up : ∀ (n k : Nat), k ≤ 10 → Derives false (.level k) [.id n] (.var n) := by
    intro n k hk
    induction k with
    | zero => exact .ofCast (.ofUnary (.ofPostfix (.ofPrimary (.var n))))
    | succ k ih => exact .ofLevel (by omega) (ih (by omega))
  have upTo : ∀ (s : List ETok) (t : Tree) (j k : Nat), j + k ≤ 10 →
      Derives false (.level j) s t → Derives false (.level (j + k)) s t := by
    intro s t j k hk h
    induction k with
    | zero => exact h
    | succ k ih => exact Derives.ofLevel (k := j + k) (by omega) (ih (by omega))
  have top : ∀ (s : List ETok) (t : Tree) (j : Nat), j ≤ 10 →
      Derives false (.level j) s t → Derives false .expression s t := by
    intro s t j hj h
    have := upTo s t j (10 - j) (by omega) h
    rw [show j + (10 - j) = 10 by omega] at this
    exact .ofAssign (.ofCond (.ofLor this))
  have hp : ∀ o : BinOp, ∃ k : Nat, o.prec = k + 1 ∧ k < 10 := by
    intro o
    cases o <;> exact ⟨_, rfl, by decide⟩
  obtain ⟨k₁, h₁, l₁⟩ := hp o₁
  obtain ⟨k₂, h₂, l₂⟩ := hp o₂
  have d₁ : ∀ x y : Nat, Derives false (.level (k₁ + 1)) ([.id x] ++ .p o₁.tok :: [.id y])
      (.bin o₁ (.var x) (.var y)) :=
    fun x y => .bin o₁ h₁ (up x _ (by omega)) (up y _ (by omega))
  have d₂ : ∀ x y : Nat, Derives false (.level (k₂ + 1)) ([.id x] ++ .p o₂.tok :: [.id y])
      (.bin o₂ (.var x) (.var y)) :=
    fun x y => .bin o₂ h₂ (up x _ (by omega)) (up y _ (by omega))
  split
  · rename_i hle
    have l := upTo _ _ (k₁ + 1) (k₂ - k₁) (by omega) (d₁ a b)
    rw [show k₁ + 1 + (k₂ - k₁) = k₂ + 1 by omega] at l
    exact C44_groups_as_C _ _ (top _ _ _ (by omega) (.bin o₂ h₂ l (up c _ (by omega))))
  · rename_i hle
    have r := upTo _ _ (k₂ + 1) (k₁ - (k₂ + 1)) (by omega) (d₂ b c)
    rw [show k₂ + 1 + (k₁ - (k₂ + 1)) = k₁ by omega] at r
    exact C44_groups_as_C _ _ (top _ _ _ (by omega) (.bin o₁ h₁ (up a _ (by omega)) r))

/-- A primary expression is an expression of every kind. -/
theorem primary_is {s : List ETok} {t : Tree} (d : Derives false .primary s t) :
    Derives false .cast s t ∧ (∀ k : Nat, k ≤ 10 → Derives false (.level k) s t) ∧
    Derives false .conditional s t ∧ Derives false .assignment s t ∧
    Derives false .expression s t := by
  have hl : ∀ k : Nat, k ≤ 10 → Derives false (.level k) s t := by
    intro k hk
    induction k with
    | zero => exact .ofCast (.ofUnary (.ofPostfix (.ofPrimary d)))
    | succ k ih => exact .ofLevel (by omega) (ih (by omega))
  exact ⟨.ofUnary (.ofPostfix (.ofPrimary d)), hl, .ofLor (hl 10 (by omega)),
    .ofCond (.ofLor (hl 10 (by omega))), .ofAssign (.ofCond (.ofLor (hl 10 (by omega))))⟩

theorem unary_is {s : List ETok} {t : Tree} (d : Derives false .unary s t) :
    Derives false .expression s t := by
  have hl : ∀ k : Nat, k ≤ 10 → Derives false (.level k) s t := by
    intro k hk
    induction k with
    | zero => exact .ofCast (.ofUnary d)
    | succ k ih => exact .ofLevel (by omega) (ih (by omega))
  exact .ofAssign (.ofCond (.ofLor (hl 10 (by omega))))

theorem level_is {s : List ETok} {t : Tree} {j : Nat} (hj : j ≤ 10)
    (d : Derives false (.level j) s t) : Derives false .expression s t := by
  have hl : ∀ k : Nat, j + k ≤ 10 → Derives false (.level (j + k)) s t := by
    intro k hk
    induction k with
    | zero => exact d
    | succ k ih => exact Derives.ofLevel (k := j + k) (by omega) (ih (by omega))
  have := hl (10 - j) (by omega)
  rw [show j + (10 - j) = 10 by omega] at this
  exact .ofAssign (.ofCond (.ofLor this))

/-- The printed form of a tree is a primary expression with that tree. -/
theorem print_derives (t : Tree) :
    (t.Wf false → Derives false .primary t.print t) ∧
    (t.Wf true → t = .noArgs ∨ Derives false .arguments t.print t) := by
  induction t with
  | var n => exact ⟨fun _ => .var n, fun h => h.elim⟩
  | num n => exact ⟨fun _ => .num n, fun h => h.elim⟩
  | labelAddr n => exact ⟨fun _ => .paren (unary_is (.labelAddr n)), fun h => h.elim⟩
  | un o a iha =>
    exact ⟨fun h => .paren (unary_is (.un o (primary_is (iha.1 h)).1)), fun h => h.elim⟩
  | bin o a b iha ihb =>
    refine ⟨fun h => .paren ?_, fun h => h.elim⟩
    obtain ⟨k, hp, hk⟩ : ∃ k : Nat, o.prec = k + 1 ∧ k < 10 := by
      cases o <;> exact ⟨_, rfl, by decide⟩
    exact level_is (j := k + 1) (by omega) (.bin o hp
      ((primary_is (iha.1 h.1)).2.1 _ (by omega)) ((primary_is (ihb.1 h.2)).2.1 _ (by omega)))
  | preInc a iha =>
    exact ⟨fun h => .paren (unary_is (.preInc (.ofPostfix (.ofPrimary (iha.1 h))))),
      fun h => h.elim⟩
  | preDec a iha =>
    exact ⟨fun h => .paren (unary_is (.preDec (.ofPostfix (.ofPrimary (iha.1 h))))),
      fun h => h.elim⟩
  | postInc a iha =>
    exact ⟨fun h => .paren (unary_is (.ofPostfix (.postInc (.ofPrimary (iha.1 h))))),
      fun h => h.elim⟩
  | postDec a iha =>
    exact ⟨fun h => .paren (unary_is (.ofPostfix (.postDec (.ofPrimary (iha.1 h))))),
      fun h => h.elim⟩
  | index a i iha ihi =>
    exact ⟨fun h => .paren (unary_is (.ofPostfix (.index (.ofPrimary (iha.1 h.1))
      (primary_is (ihi.1 h.2)).2.2.2.2))), fun h => h.elim⟩
  | call f a ihf iha =>
    refine ⟨fun h => .paren (unary_is (.ofPostfix ?_)), fun h => h.elim⟩
    rcases iha.2 h.2 with rfl | d
    · exact .call0 (.ofPrimary (ihf.1 h.1))
    · exact .call (.ofPrimary (ihf.1 h.1)) d
  | noArgs => exact ⟨fun h => h.elim, fun _ => .inl rfl⟩
  | args a m iha ihm =>
    refine ⟨fun h => h.elim, fun h => .inr ?_⟩
    have da := (primary_is (iha.1 h.1)).2.2.2.1
    rcases ihm.2 h.2 with rfl | d
    · exact .lastArg da
    · cases m with
      | noArgs => exact .lastArg da
      | args b m' => exact .moreArgs da d
      | _ => exact h.2.elim
  | member a n iha =>
    exact ⟨fun h => .paren (unary_is (.ofPostfix (.member n (.ofPrimary (iha.1 h))))),
      fun h => h.elim⟩
  | arrow a n iha =>
    exact ⟨fun h => .paren (unary_is (.ofPostfix (.arrow n (.ofPrimary (iha.1 h))))),
      fun h => h.elim⟩
  | cast n a iha =>
    exact ⟨fun h => .paren (level_is (j := 0) (by omega)
      (.ofCast (.cast n (primary_is (iha.1 h)).1))), fun h => h.elim⟩
  | sizeE a iha =>
    exact ⟨fun h => .paren (unary_is (.sizeE (.ofPostfix (.ofPrimary (iha.1 h))))),
      fun h => h.elim⟩
  | sizeT n => exact ⟨fun _ => .paren (unary_is (.sizeT n)), fun h => h.elim⟩
  | cond c a b ihc iha ihb =>
    exact ⟨fun h => .paren (.ofAssign (.ofCond (.cond
      ((primary_is (ihc.1 h.1)).2.1 10 (by omega)) (primary_is (iha.1 h.2.1)).2.2.2.2
      (primary_is (ihb.1 h.2.2)).2.2.1))), fun h => h.elim⟩
  | condOr c b ihc ihb =>
    exact ⟨fun h => .paren (.ofAssign (.ofCond (.condOr
      ((primary_is (ihc.1 h.1)).2.1 10 (by omega)) (primary_is (ihb.1 h.2)).2.2.1))),
      fun h => h.elim⟩
  | assign o a b iha ihb =>
    exact ⟨fun h => .paren (.ofAssign (.assign o (.ofPostfix (.ofPrimary (iha.1 h.1)))
      (primary_is (ihb.1 h.2)).2.2.2.1)), fun h => h.elim⟩
  | comma a b iha ihb =>
    exact ⟨fun h => .paren (.comma (primary_is (iha.1 h.1)).2.2.2.1
      (primary_is (ihb.1 h.2)).2.2.2.2), fun h => h.elim⟩

/-- Printing a tree with full parentheses and parsing it again gives the tree. -/
theorem C44_print_parse (t : Tree) (h : t.Wf false) : parse t.print = some t :=
  C44_groups_as_C _ _ (primary_is ((print_derives t).1 h)).2.2.2.2

theorem derives_wf {ext : Bool} {nt : NT} {s : List ETok} {t : Tree}
    (d : Derives ext nt s t) : t.Wf (decide (nt = .arguments)) := by
  induction d <;> simp_all [Tree.Wf]

/-- So an expression that is accepted, printed with full parentheses and parsed
again, is the same tree. -/
theorem C44_reparse (ts : List ETok) (t : Tree) (h : parse ts = some t) :
    parse t.print = some t :=
  C44_print_parse t (derives_wf (C44_accepts_only ts t h))

/-- The standard groups commas to the left, slimcc to the right; the operands
are the same, in the same order. -/
theorem C44_commas (s : List ETok) (ts : List Tree) (h : CommaLeft s ts) :
    parse s = some (commas ts) := by
  suffices H : ∀ (s : List ETok) (ts : List Tree), CommaLeft s ts →
      Derives false .expression s (commas ts) ∧
      ∀ (r : List ETok) (us : List Tree), us ≠ [] → Derives false .expression r (commas us) →
        Derives false .expression (s ++ .p .comma :: r) (commas (ts ++ us)) from
    C44_groups_as_C _ _ (H s ts h).1
  have cons : ∀ (t : Tree) (us : List Tree), us ≠ [] →
      commas (t :: us) = .comma t (commas us) := by
    intro t us hu
    cases us with
    | nil => exact absurd rfl hu
    | cons u us => rfl
  intro s ts h
  induction h with
  | one d =>
    refine ⟨.ofAssign d, fun r us hu dr => ?_⟩
    rw [List.singleton_append, cons _ _ hu]
    exact .comma d dr
  | more _ dr ih =>
    refine ⟨ih.2 _ _ (by simp) (.ofAssign dr), fun r us hu du => ?_⟩
    have := ih.2 _ _ (List.cons_ne_nil _ us) (by
      rw [cons _ _ hu]
      exact .comma dr du)
    simpa using this

/-! ### Where slimcc accepts more than C -/

theorem no_cond_unary {nt : NT} {s : List ETok} {t : Tree} (d : Derives false nt s t) :
    (nt = .primary ∨ nt = .postfix ∨ nt = .unary) → (∃ c a b : Tree, t = .cond c a b) →
      ETok.p .lpar ∈ s := by
  induction d with
  | paren d ih => intro _ _; simp
  | ofPrimary d ih => intro _ h; exact ih (by simp) h
  | ofPostfix d ih => intro _ h; exact ih (by simp) h
  | _ => simp

theorem no_cond_assign {nt : NT} {s : List ETok} {t : Tree} (d : Derives false nt s t) :
    (∃ (o : AsgOp) (c a b r : Tree), t = .assign o (.cond c a b) r) →
      ETok.p .lpar ∈ s := by
  induction d with
  | paren d ih => intro _; simp
  | assign o d _ ih _ =>
    rintro ⟨o', c, a, b, r, e⟩
    cases e
    have := no_cond_unary d (by simp) ⟨c, a, b, rfl⟩
    simp [this]
  | ofPrimary _ ih | lastArg _ ih | ofPostfix _ ih | ofUnary _ ih | ofCast _ ih
  | ofLevel _ _ ih | ofLor _ ih | ofCond _ ih | ofAssign _ ih =>
    first | exact ih | (rintro ⟨_, _, _, _, _, e⟩; cases e)
  | assignCond _ h => cases h
  | _ => rintro ⟨_, _, _, _, _, e⟩; cases e

/-- `a ? b : c = d` is no C expression, since a conditional is not an
assignable operand in the grammar; slimcc reads it as `(a ? b : c) = d`. -/
theorem C44_conditional_before_assignment (a b c d : Nat) :
    (¬ ∃ t : Tree, Derives false .expression [.id a, .p .quest, .id b, .p .colon, .id c,
      .p .asg, .id d] t) ∧
    parse [.id a, .p .quest, .id b, .p .colon, .id c, .p .asg, .id d] =
      some (.assign .set (.cond (.var a) (.var b) (.var c)) (.var d)) := by
  have hp : parse [.id a, .p .quest, .id b, .p .colon, .id c, .p .asg, .id d] =
      some (.assign .set (.cond (.var a) (.var b) (.var c)) (.var d)) := by
    rfl
  refine ⟨?_, hp⟩
  rintro ⟨t, h⟩
  have := C44_groups_as_C _ _ h
  rw [hp] at this
  cases this
  have := no_cond_assign h ⟨_, _, _, _, _, rfl⟩
  simp at this

theorem index_first {nt : NT} {s : List ETok} {t : Tree} (d : Derives false nt s t) :
    (∃ a i : Tree, t = .index a i) → ∃ (h : ETok) (r : List ETok), s = h :: r ∧ primHead h := by
  induction d with
  | paren d ih => intro _; exact ⟨_, _, rfl, trivial⟩
  | index d _ ih _ =>
    intro _
    obtain ⟨h, r, rfl, -, -, hh⟩ := first d
    exact ⟨h, _, rfl, hh (by simp)⟩
  | ofPrimary _ ih | lastArg _ ih | ofPostfix _ ih | ofUnary _ ih | ofCast _ ih
  | ofLevel _ _ ih | ofLor _ ih | ofCond _ ih | ofAssign _ ih =>
    first | exact ih | (rintro ⟨_, _, e⟩; cases e)
  | _ => rintro ⟨_, _, e⟩; cases e

/-- `sizeof (T) [i]` is no C expression; slimcc subscripts the size. -/
theorem C44_subscripted_sizeof (n i : Nat) :
    (¬ ∃ t : Tree, Derives false .expression [.sizeof_, .p .lpar, .ty n, .p .rpar,
      .p .lbrk, .id i, .p .rbrk] t) ∧
    parse [.sizeof_, .p .lpar, .ty n, .p .rpar, .p .lbrk, .id i, .p .rbrk] =
      some (.index (.sizeT n) (.var i)) := by
  have hp : parse [.sizeof_, .p .lpar, .ty n, .p .rpar, .p .lbrk, .id i, .p .rbrk] =
      some (.index (.sizeT n) (.var i)) := by
    rfl
  refine ⟨?_, hp⟩
  rintro ⟨t, h⟩
  have := C44_groups_as_C _ _ h
  rw [hp] at this
  cases this
  obtain ⟨a, r, e, hh⟩ := index_first h ⟨_, _, rfl⟩
  cases e
  exact hh

/-! ### Concrete cases -/

/-- `a = b = c ? d , e : -f[g] ++ , ( ty ) h ( i , j ) . k << l - m * n` -/
def c44Toks : List ETok :=
  [.id 0, .p .asg, .id 1, .p .asg, .id 2, .p .quest, .id 3, .p .comma, .id 4, .p .colon,
   .p .minus, .id 5, .p .lbrk, .id 6, .p .rbrk, .p .inc, .p .comma,
   .p .lpar, .ty 0, .p .rpar, .id 7, .p .lpar, .id 8, .p .comma, .id 9, .p .rpar, .p .dot, .id 10,
   .p .shl, .id 11, .p .minus, .id 12, .p .star, .id 13]

def c44Tree : Tree :=
  .comma
    (.assign .set (.var 0) (.assign .set (.var 1)
      (.cond (.var 2) (.comma (.var 3) (.var 4)) (.un .neg (.postInc (.index (.var 5) (.var 6)))))))
    (.bin .shl
      (.cast 0 (.member (.call (.var 7) (.args (.var 8) (.args (.var 9) .noArgs))) 10))
      (.bin .sub (.var 11) (.bin .mul (.var 12) (.var 13))))

theorem c44_parse : parse c44Toks = some c44Tree := by rfl

example : c44Tree.Wf false := derives_wf (C44_accepts_only _ _ c44_parse)
example : parse c44Tree.print = some c44Tree := C44_reparse _ _ c44_parse

/-- A derivable expression for the hypotheses above: `a - b - c * d`. -/
example : Derives false .expression
    [.id 0, .p .minus, .id 1, .p .minus, .id 2, .p .star, .id 3]
    (.bin .sub (.bin .sub (.var 0) (.var 1)) (.bin .mul (.var 2) (.var 3))) :=
  (C44_exactly_C _ _ (by
    intro x hx
    simp only [List.mem_cons, List.not_mem_nil, or_false] at hx
    rcases hx with rfl | rfl | rfl | rfl | rfl | rfl | rfl <;>
      first | trivial | (intro o; cases o <;> decide))).mp (by rfl)

/-- `a , b , c` as the standard groups it. -/
example : CommaLeft [.id 0, .p .comma, .id 1, .p .comma, .id 2] [.var 0, .var 1, .var 2] :=
  .more (.more (.one (primary_is (.var 0)).2.2.2.1) (primary_is (.var 1)).2.2.2.1)
    (primary_is (.var 2)).2.2.2.1

example : endsExpr [.p .rpar, .p .plus] := trivial

end Slimcc.Props
