/-
Every expression of the C grammar is accepted by the parser, which builds the
tree of its derivation and leaves exactly the tokens that follow it.
-/
import Verif.Lemmas.ExprSound
set_option autoImplicit false

namespace Slimcc.EPL
open Slimcc.Gram Slimcc.EP

/-- The level of the construct a token continues: 0 for postfix operators, 1 to
10 for binary ones, 11 for `?`, 12 for assignments, 13 for the comma, 100 for
tokens that continue nothing. -/
def bp : ETok → Nat
  | .p .lpar | .p .lbrk | .p .dot | .p .arrow | .p .inc | .p .dec => 0
  | .p .star | .p .slash | .p .percent => 1
  | .p .plus | .p .minus => 2
  | .p .shl | .p .shr => 3
  | .p .lt | .p .gt | .p .le | .p .ge => 4
  | .p .eqeq | .p .ne => 5
  | .p .amp => 6
  | .p .caret => 7
  | .p .bar => 8
  | .p .ampamp => 9
  | .p .barbar => 10
  | .p .quest => 11
  | .p .asg | .p .mulAsg | .p .divAsg | .p .modAsg | .p .addAsg | .p .subAsg
  | .p .shlAsg | .p .shrAsg | .p .andAsg | .p .xorAsg | .p .orAsg => 12
  | .p .comma => 13
  | _ => 100

/-- `rest` does not continue a construct of level `n`. -/
def Stop (n : Nat) (rest : List ETok) : Prop :=
  ∀ (h : ETok) (r : List ETok), rest = h :: r → n < bp h

theorem Stop.mono {m n : Nat} {rest : List ETok} (h : Stop n rest) (hm : m ≤ n) :
    Stop m rest := fun a r e => Nat.lt_of_le_of_lt hm (h a r e)

theorem stop_cons {n : Nat} {h : ETok} {r : List ETok} (hb : n < bp h) : Stop n (h :: r) := by
  intro a r' e
  cases e
  exact hb

theorem stop_nil (n : Nat) : Stop n [] := by
  intro a r e
  cases e

theorem bp_op (o : BinOp) : bp (.p o.tok) = o.prec := by cases o <;> rfl
theorem bp_asg (o : AsgOp) : bp (.p o.tok) = 12 := by cases o <;> rfl

/-- Tokens an expression can begin with. -/
def okHead : ETok → Prop
  | .id _ | .num _ | .sizeof_ => True
  | .p .lpar | .p .inc | .p .dec | .p .amp | .p .star | .p .plus | .p .minus
  | .p .tilde | .p .bang | .p .ampamp => True
  | _ => False

/-- Tokens a primary expression can begin with. -/
def primHead : ETok → Prop
  | .id _ | .num _ | .p .lpar => True
  | _ => False

/-- Which token comes first, by nonterminal. -/
def First (nt : NT) (s : List ETok) : Prop :=
  ∃ (h : ETok) (r : List ETok), s = h :: r ∧ okHead h ∧
    ((nt = .primary ∨ nt = .postfix ∨ nt = .unary) → h = .p .lpar →
      ∃ (h' : ETok) (r' : List ETok), r = h' :: r' ∧ okHead h') ∧
    ((nt = .primary ∨ nt = .postfix) → primHead h)

theorem First.append {nt nt' : NT} {s : List ETok} (x : List ETok) (h : First nt s)
    (h1 : (nt' = .primary ∨ nt' = .postfix ∨ nt' = .unary) →
      (nt = .primary ∨ nt = .postfix ∨ nt = .unary))
    (h2 : (nt' = .primary ∨ nt' = .postfix) → (nt = .primary ∨ nt = .postfix)) :
    First nt' (s ++ x) := by
  obtain ⟨a, r, rfl, hk, hp, hh⟩ := h
  refine ⟨a, r ++ x, rfl, hk, fun hn e => ?_, fun hn => hh (h2 hn)⟩
  obtain ⟨a', r', rfl, hk'⟩ := hp (h1 hn) e
  exact ⟨a', r' ++ x, rfl, hk'⟩

theorem First.weaken {nt nt' : NT} {s : List ETok} (h : First nt s)
    (h1 : (nt' = .primary ∨ nt' = .postfix ∨ nt' = .unary) →
      (nt = .primary ∨ nt = .postfix ∨ nt = .unary))
    (h2 : (nt' = .primary ∨ nt' = .postfix) → (nt = .primary ∨ nt = .postfix)) :
    First nt' s := by
  have := h.append [] h1 h2
  simpa using this

theorem unTok_ok (o : UnOp) : okHead (.p o.tok) ∧ ETok.p o.tok ≠ .p .lpar := by
  cases o <;> exact ⟨trivial, by decide⟩

/-- A list that starts with a given token other than `(`. -/
theorem first_tok {nt : NT} {h : ETok} {r : List ETok} (hk : okHead h) (hl : h ≠ .p .lpar)
    (hn : ¬ (nt = .primary ∨ nt = .postfix)) : First nt (h :: r) :=
  ⟨h, r, rfl, hk, fun _ e => absurd e hl, fun e => absurd e hn⟩

theorem first {nt : NT} {s : List ETok} {t : Tree} (d : Derives false nt s t) : First nt s := by
  induction d with
  | var n => exact ⟨_, _, rfl, trivial, (fun _ e => by cases e), fun _ => trivial⟩
  | num n => exact ⟨_, _, rfl, trivial, (fun _ e => by cases e), fun _ => trivial⟩
  | paren d ih =>
    obtain ⟨a, r, rfl, hk, _, _⟩ := ih
    exact ⟨_, _, rfl, trivial, fun _ _ => ⟨a, r ++ [.p .rpar], by simp, hk⟩, fun _ => trivial⟩
  | ofPrimary d ih => exact ih.weaken (by simp) (by simp)
  | index d _ ih _ => exact ih.append _ (by simp) (by simp)
  | call d _ ih _ => exact ih.append _ (by simp) (by simp)
  | call0 d ih => exact ih.append _ (by simp) (by simp)
  | member n d ih => exact ih.append _ (by simp) (by simp)
  | arrow n d ih => exact ih.append _ (by simp) (by simp)
  | postInc d ih => exact ih.append _ (by simp) (by simp)
  | postDec d ih => exact ih.append _ (by simp) (by simp)
  | lastArg d ih => exact ih.weaken (by simp) (by simp)
  | moreArgs d _ ih _ => exact ih.append _ (by simp) (by simp)
  | ofPostfix d ih => exact ih.weaken (by simp) (by simp)
  | preInc d ih => exact first_tok trivial (by decide) (by simp)
  | preDec d ih => exact first_tok trivial (by decide) (by simp)
  | un o d ih => exact first_tok (unTok_ok o).1 (unTok_ok o).2 (by simp)
  | sizeE d ih => exact first_tok trivial (by decide) (by simp)
  | sizeT n => exact first_tok trivial (by decide) (by simp)
  | labelAddr n => exact first_tok trivial (by decide) (by simp)
  | ofUnary d ih => exact ih.weaken (by simp) (by simp)
  | cast n d ih => exact ⟨_, _, rfl, trivial, by simp, by simp⟩
  | ofCast d ih => exact ih.weaken (by simp) (by simp)
  | ofLevel _ d ih => exact ih.weaken (by simp) (by simp)
  | bin o _ d _ ih _ => exact ih.append _ (by simp) (by simp)
  | ofLor d ih => exact ih.weaken (by simp) (by simp)
  | cond d _ _ ih _ _ => exact ih.append _ (by simp) (by simp)
  | condOr d _ ih _ => exact ih.append _ (by simp) (by simp)
  | ofCond d ih => exact ih.weaken (by simp) (by simp)
  | assign o d _ ih _ => exact ih.append _ (by simp) (by simp)
  | ofAssign d ih => exact ih.weaken (by simp) (by simp)
  | comma d _ ih _ => exact ih.append _ (by simp) (by simp)
  | assignCond o he => cases he
  | sizeEPrimary he => cases he
  | sizeTPrimary n he => cases he

/-- `fn` reads exactly `s` and returns `t`, given fuel and a stopping token. -/
def Plain (fn : Nat → List ETok → Res) (need stop : Nat) (s : List ETok) (t : Tree) : Prop :=
  ∀ (f : Nat) (rest : List ETok), 40 * s.length + need ≤ f → Stop stop rest →
    fn f (s ++ rest) = some (t, rest)

/-- What is claimed of each nonterminal. -/
def Claim : NT → List ETok → Tree → Prop
  | .primary, s, t => ∀ (f : Nat) (rest : List ETok), 40 * s.length + 1 ≤ f →
      primary f (s ++ rest) = some (t, rest)
  | .postfix, s, t => ∃ n : Nat, n ≤ s.length ∧ ∀ (f : Nat) (rest : List ETok),
      40 * s.length + 2 ≤ f → unary (f + 1) (s ++ rest) = postfixOps (f - n) t rest
  | .unary, s, t => Plain unary 4 0 s t
  | .cast, s, t => Plain cast 5 0 s t
  | .level 0, s, t => Plain (fun f => binary f 0) 6 0 s t
  | .level (k + 1), s, t => ∃ n : Nat, n ≤ s.length ∧ ∀ (f : Nat) (rest : List ETok),
      40 * s.length + 6 + k ≤ f → Stop k rest →
      binary (f + 1) (k + 1) (s ++ rest) = binaryLoop (f - n) k t rest
  | .conditional, s, t => Plain conditional 18 11 s t
  | .assignment, s, t => Plain assign 19 12 s t
  | .expression, s, t => Plain expr 20 13 s t
  | .arguments, s, t => ∀ (f : Nat) (rest : List ETok), 40 * s.length + 21 ≤ f →
      arguments f false (s ++ .p .rpar :: rest) = some (t, rest) ∧
      arguments f true (.p .comma :: (s ++ .p .rpar :: rest)) = some (t, rest)

theorem loop_stop {k f : Nat} {t : Tree} {rest : List ETok} (hf : 0 < f)
    (hs : Stop (k + 1) rest) : binaryLoop f k t rest = some (t, rest) := by
  obtain ⟨g, rfl⟩ : ∃ g, f = g + 1 := ⟨f - 1, by omega⟩
  cases rest with
  | nil => rw [EP.binaryLoop]
  | cons h r =>
    rw [EP.binaryLoop]
    cases ho : opAt (k + 1) h with
    | none => rfl
    | some o =>
      exfalso
      obtain ⟨rfl, hp⟩ := (opAt_iff _ _ _).mp ho
      have := hs _ _ rfl
      rw [bp_op] at this
      omega

theorem post_stop {f : Nat} {t : Tree} {rest : List ETok} (hf : 0 < f)
    (hs : Stop 0 rest) : postfixOps f t rest = some (t, rest) := by
  obtain ⟨g, rfl⟩ : ∃ g, f = g + 1 := ⟨f - 1, by omega⟩
  unfold EP.postfixOps
  split <;> first
    | rfl
    | (exfalso; have := hs _ _ rfl; exact absurd this (by decide))
    | (rename_i h; cases h)

theorem succ_of {n f : Nat} (h : n + 1 ≤ f) : ∃ g : Nat, f = g + 1 ∧ n ≤ g :=
  ⟨f - 1, by omega, by omega⟩

theorem unary_of_postfix {s : List ETok} {t : Tree} (h : Claim .postfix s t) :
    Claim .unary s t := by
  obtain ⟨n, hn, h⟩ := h
  intro f rest hf hs
  obtain ⟨g, rfl, hg⟩ := succ_of hf
  rw [h g rest (by omega)]
  exact post_stop (by omega) hs

theorem cast_of_unary {s : List ETok} {t : Tree} (hf : First .unary s)
    (h : Claim .unary s t) : Claim .cast s t := by
  intro f rest hge hs
  obtain ⟨g, rfl, hg⟩ := succ_of hge
  obtain ⟨a, r, rfl, hk, hp, -⟩ := hf
  rw [← h g rest (by omega) hs]
  have hp := hp (by simp)
  unfold EP.cast
  split
  · rename_i e; cases e
  · exfalso
    rename_i e
    simp only [List.cons_append, List.cons.injEq] at e
    obtain ⟨rfl, e⟩ := e
    obtain ⟨h', r', rfl, hk'⟩ := hp rfl
    simp only [List.cons_append, List.cons.injEq] at e
    rw [e.1] at hk'
    exact hk'
  · exfalso
    rename_i e
    simp only [List.cons_append, List.cons.injEq] at e
    obtain ⟨rfl, e⟩ := e
    obtain ⟨h', r', rfl, hk'⟩ := hp rfl
    simp only [List.cons_append, List.cons.injEq] at e
    rw [e.1] at hk'
    exact hk'
  · rename_i e _ _
    cases e
    rfl

theorem level_plain {k : Nat} {s : List ETok} {t : Tree} (h : Claim (.level k) s t) :
    Plain (fun f => binary f k) (6 + k) k s t := by
  cases k with
  | zero => exact h
  | succ k =>
    obtain ⟨n, hn, h⟩ := h
    intro f rest hf hs
    obtain ⟨g, rfl, hg⟩ := succ_of (n := 40 * s.length + 6 + k) (f := f) (by omega)
    show binary (g + 1) (k + 1) (s ++ rest) = _
    rw [h g rest (by omega) (hs.mono (by omega))]
    exact loop_stop (by omega) hs

theorem level_up {k : Nat} {s : List ETok} {t : Tree} (h : Claim (.level k) s t) :
    Claim (.level (k + 1)) s t := by
  refine ⟨0, by omega, fun f rest hf hs => ?_⟩
  have := level_plain h f rest (by omega) hs
  simp only at this
  rw [EP.binary, this]
  rfl

theorem level_of_cast {s : List ETok} {t : Tree} (h : Claim .cast s t) :
    Claim (.level 0) s t := by
  intro f rest hf hs
  obtain ⟨g, rfl, hg⟩ := succ_of hf
  show binary (g + 1) 0 _ = _
  rw [EP.binary]
  exact h g rest (by omega) hs

theorem level_all {s : List ETok} {t : Tree} (h : Claim .cast s t) (k : Nat) :
    Claim (.level k) s t := by
  induction k with
  | zero => exact level_of_cast h
  | succ k ih => exact level_up ih

theorem cond_of_level {s : List ETok} {t : Tree} (h : Claim (.level 10) s t) :
    Claim .conditional s t := by
  intro f rest hf hs
  obtain ⟨g, rfl, hg⟩ := succ_of hf
  have := level_plain h g rest (by omega) (hs.mono (by omega))
  simp only at this
  rw [EP.conditional, this]
  split
  · rename_i e; cases e
    exact absurd (hs _ _ rfl) (by decide)
  · rename_i e; cases e
    exact absurd (hs _ _ rfl) (by decide)
  · rfl

theorem assign_of_cond {s : List ETok} {t : Tree} (h : Claim .conditional s t) :
    Claim .assignment s t := by
  intro f rest hf hs
  obtain ⟨g, rfl, hg⟩ := succ_of hf
  have := h g rest (by omega) (hs.mono (by omega))
  rw [EP.assign, this]
  cases rest with
  | nil => rfl
  | cons a r =>
    simp only
    cases ho : asgAt a with
    | none => rfl
    | some o =>
      exfalso
      rw [asgAt_iff] at ho
      subst ho
      have := hs _ _ rfl
      rw [bp_asg] at this
      omega

/-- Length bookkeeping for `simp`. -/
theorem len_app (a : List ETok) (x : ETok) (b : List ETok) :
    (a ++ x :: b).length = a.length + b.length + 1 := by
  simp; omega

theorem primary_unary {s : List ETok} {t : Tree} (hf : First .primary s)
    (h : Claim .primary s t) : Claim .postfix s t := by
  refine ⟨0, by omega, fun f rest hge => ?_⟩
  have h := h f rest (by omega)
  obtain ⟨a, r, rfl, -, -, hh⟩ := hf
  have hh := hh (.inl rfl)
  cases a with
  | id n => simp only [List.cons_append] at h ⊢; simp [EP.unary, unAt, h]
  | num n => simp only [List.cons_append] at h ⊢; simp [EP.unary, unAt, h]
  | ty n => exact hh.elim
  | sizeof_ => exact hh.elim
  | p x =>
    cases x <;> first
      | exact hh.elim
      | (simp only [List.cons_append] at h ⊢; simp [EP.unary, unAt, h])

theorem claim {nt : NT} {s : List ETok} {t : Tree} (d : Derives false nt s t) :
    Claim nt s t := by
  induction d with
  | var n =>
    intro f rest hf
    obtain ⟨g, rfl, hg⟩ := succ_of hf
    simp [EP.primary]
  | num n =>
    intro f rest hf
    obtain ⟨g, rfl, hg⟩ := succ_of hf
    simp [EP.primary]
  | paren d ih =>
    rename_i s t
    intro f rest hf
    obtain ⟨g, rfl, hg⟩ := succ_of hf
    have := ih g (.p .rpar :: rest) (by simp at hg; omega) (stop_cons (by decide))
    simp only [List.cons_append, List.append_assoc, List.nil_append]
    rw [EP.primary, this]
  | ofPrimary d ih => exact primary_unary (first d) ih
  | index d de ih ie =>
    rename_i s e t i
    obtain ⟨n, hn, ih⟩ := ih
    refine ⟨n + 1, by simp; omega, fun f rest hf => ?_⟩
    simp only [List.append_assoc, List.cons_append, List.nil_append]
    simp at hf
    rw [ih f _ (by omega)]
    obtain ⟨g, hg, hg'⟩ := succ_of (n := 40 * e.length + 20) (f := f - n) (by omega)
    rw [hg, EP.postfixOps, ie g _ (by omega) (stop_cons (by decide))]
    simp only
    congr 1
    omega
  | call d de ih ie =>
    rename_i s e t a
    obtain ⟨n, hn, ih⟩ := ih
    refine ⟨n + 1, by simp; omega, fun f rest hf => ?_⟩
    simp only [List.append_assoc, List.cons_append, List.nil_append]
    simp at hf
    rw [ih f _ (by omega)]
    obtain ⟨g, hg, hg'⟩ := succ_of (n := 40 * e.length + 21) (f := f - n) (by omega)
    rw [hg, EP.postfixOps, (ie g _ (by omega)).1]
    simp only
    congr 1
    omega
  | call0 d ih =>
    rename_i s t
    obtain ⟨n, hn, ih⟩ := ih
    refine ⟨n + 1, by simp; omega, fun f rest hf => ?_⟩
    simp only [List.append_assoc, List.cons_append, List.nil_append]
    simp at hf
    rw [ih f _ (by omega)]
    obtain ⟨g, hg, hg'⟩ := succ_of (n := 1) (f := f - n) (by omega)
    obtain ⟨g', rfl, hg'⟩ := succ_of (n := 0) (f := g) (by omega)
    rw [hg, EP.postfixOps, EP.arguments]
    simp only
    congr 1
    omega
  | member m d ih =>
    rename_i s t
    obtain ⟨n, hn, ih⟩ := ih
    refine ⟨n + 1, by simp; omega, fun f rest hf => ?_⟩
    simp only [List.append_assoc, List.cons_append, List.nil_append]
    simp at hf
    rw [ih f _ (by omega)]
    obtain ⟨g, hg, hg'⟩ := succ_of (n := 1) (f := f - n) (by omega)
    rw [hg, EP.postfixOps]
    congr 1
    omega
  | arrow m d ih =>
    rename_i s t
    obtain ⟨n, hn, ih⟩ := ih
    refine ⟨n + 1, by simp; omega, fun f rest hf => ?_⟩
    simp only [List.append_assoc, List.cons_append, List.nil_append]
    simp at hf
    rw [ih f _ (by omega)]
    obtain ⟨g, hg, hg'⟩ := succ_of (n := 1) (f := f - n) (by omega)
    rw [hg, EP.postfixOps]
    congr 1
    omega
  | postInc d ih =>
    rename_i s t
    obtain ⟨n, hn, ih⟩ := ih
    refine ⟨n + 1, by simp; omega, fun f rest hf => ?_⟩
    simp only [List.append_assoc, List.cons_append, List.nil_append]
    simp at hf
    rw [ih f _ (by omega)]
    obtain ⟨g, hg, hg'⟩ := succ_of (n := 1) (f := f - n) (by omega)
    rw [hg, EP.postfixOps]
    congr 1
    omega
  | postDec d ih =>
    rename_i s t
    obtain ⟨n, hn, ih⟩ := ih
    refine ⟨n + 1, by simp; omega, fun f rest hf => ?_⟩
    simp only [List.append_assoc, List.cons_append, List.nil_append]
    simp at hf
    rw [ih f _ (by omega)]
    obtain ⟨g, hg, hg'⟩ := succ_of (n := 1) (f := f - n) (by omega)
    rw [hg, EP.postfixOps]
    congr 1
    omega
  | lastArg d ih =>
    rename_i s t
    intro f rest hf
    obtain ⟨g, rfl, hg⟩ := succ_of hf
    have h := ih g (.p .rpar :: rest) (by omega) (stop_cons (by decide))
    have h' : arguments g true (.p .rpar :: rest) = some (.noArgs, rest) := by
      obtain ⟨g', rfl, hg'⟩ := succ_of (n := 0) (f := g) (by omega)
      rw [EP.arguments]
    obtain ⟨a, r, rfl, hk, -, -⟩ := first d
    constructor
    · simp only [List.cons_append] at h ⊢
      unfold EP.arguments
      split
      · rename_i e; cases e
      · rename_i e; cases e; exact hk.elim
      · rename_i e _ _; cases e; rw [h]; simp only; rw [h']
      · contradiction
      · contradiction
    · rw [EP.arguments, h]
      simp only
      rw [h']
  | moreArgs d dr ih ir =>
    rename_i s r t u
    intro f rest hf
    obtain ⟨g, rfl, hg⟩ := succ_of hf
    simp at hg
    have h := ih g (.p .comma :: (r ++ .p .rpar :: rest)) (by omega) (stop_cons (by decide))
    have h' := (ir g rest (by omega)).2
    obtain ⟨a, r, rfl, hk, -, -⟩ := first d
    constructor
    · simp only [List.cons_append, List.append_assoc] at h ⊢
      unfold EP.arguments
      split
      · rename_i e; cases e
      · rename_i e; cases e; exact hk.elim
      · rename_i e _ _; cases e; rw [h]; simp only; rw [h']
      · contradiction
      · contradiction
    · simp only [List.cons_append, List.append_assoc] at h ⊢
      rw [EP.arguments, h]
      simp only
      rw [h']
  | ofPostfix d ih => exact unary_of_postfix ih
  | preInc d ih =>
    intro f rest hf hs
    obtain ⟨g, rfl, hg⟩ := succ_of hf
    simp at hg
    rw [List.cons_append, EP.unary, ih g rest (by omega) hs]
  | preDec d ih =>
    intro f rest hf hs
    obtain ⟨g, rfl, hg⟩ := succ_of hf
    simp at hg
    rw [List.cons_append, EP.unary, ih g rest (by omega) hs]
  | un o d ih =>
    intro f rest hf hs
    obtain ⟨g, rfl, hg⟩ := succ_of hf
    simp at hg
    have h := ih g rest (by omega) hs
    cases o <;> simp [EP.unary, UnOp.tok, unAt, h]
  | sizeE d ih =>
    rename_i s t
    intro f rest hf hs
    obtain ⟨g, rfl, hg⟩ := succ_of hf
    simp at hg
    obtain ⟨g, rfl, hg⟩ := succ_of (n := 40 * s.length + 42) (f := g) (by omega)
    have h := ih g rest (by omega) hs
    have h' : primary (g + 1) (.sizeof_ :: (s ++ rest)) = some (.sizeE t, rest) := by
      obtain ⟨a, r, rfl, hk, hp, -⟩ := first d
      have hp := hp (by simp)
      unfold EP.primary
      split
      · rename_i e; cases e
      · rename_i e; cases e
      · exfalso
        rename_i e
        simp only [List.cons_append, List.cons.injEq, true_and] at e
        obtain ⟨rfl, e⟩ := e
        obtain ⟨b, r', rfl, hk'⟩ := hp rfl
        simp only [List.cons_append, List.cons.injEq] at e
        rw [e.1] at hk'
        exact hk'
      · exfalso
        rename_i e
        simp only [List.cons_append, List.cons.injEq, true_and] at e
        obtain ⟨rfl, e⟩ := e
        obtain ⟨b, r', rfl, hk'⟩ := hp rfl
        simp only [List.cons_append, List.cons.injEq] at e
        rw [e.1] at hk'
        exact hk'
      · rename_i e
        cases e
        rename_i hg' _ _
        cases hg'
        rw [h]
      · rename_i e; cases e
      · rename_i e; cases e
      · exfalso; rename_i x _ _; exact x _ rfl
    have h'' := post_stop (t := .sizeE t) (f := g + 1) (by omega) hs
    simp [EP.unary, unAt, h', h'']
  | sizeT n =>
    intro f rest hf hs
    obtain ⟨g, rfl, hg⟩ := succ_of hf
    simp at hg
    obtain ⟨g, rfl, hg⟩ := succ_of (n := 42) (f := g) (by omega)
    have h'' := post_stop (t := .sizeT n) (f := g + 1) (by omega) hs
    simp [EP.unary, unAt, EP.primary, h'']
  | labelAddr n =>
    intro f rest hf hs
    obtain ⟨g, rfl, hg⟩ := succ_of hf
    simp [EP.unary]
  | ofUnary d ih => exact cast_of_unary (first d) ih
  | cast n d ih =>
    intro f rest hf hs
    obtain ⟨g, rfl, hg⟩ := succ_of hf
    simp at hg
    simp only [List.cons_append]
    rw [EP.cast, ih g rest (by omega) hs]
  | ofCast d ih => exact level_of_cast ih
  | ofLevel _ d ih => exact level_up ih
  | bin o hp d dr ih ir =>
    rename_i s r t u k
    obtain ⟨n, hn, ih⟩ := ih
    have ir := level_plain ir
    refine ⟨n + 1, by simp; omega, fun f rest hf hs => ?_⟩
    simp only [List.append_assoc, List.cons_append]
    simp at hf
    rw [ih f _ (by omega) (stop_cons (by rw [bp_op]; omega))]
    obtain ⟨g, hg, hg'⟩ := succ_of (n := 40 * r.length + (6 + k)) (f := f - n) (by omega)
    have ir := ir g rest hg' hs
    simp only at ir
    rw [hg, EP.binaryLoop, (opAt_iff _ _ _).mpr ⟨rfl, hp⟩]
    simp only
    rw [ir]
    simp only
    congr 1
    omega
  | ofLor d ih => exact cond_of_level ih
  | cond d de dr ih ie ir =>
    rename_i s e r c t u
    intro f rest hf hs
    obtain ⟨g, rfl, hg⟩ := succ_of hf
    simp at hg
    have h := level_plain ih g (.p .quest :: (e ++ .p .colon :: (r ++ rest))) (by omega)
      (stop_cons (by decide))
    have he := ie g (.p .colon :: (r ++ rest)) (by omega) (stop_cons (by decide))
    have hr := ir g rest (by omega) hs
    simp only at h
    simp only [List.append_assoc, List.cons_append]
    rw [EP.conditional, h]
    obtain ⟨a, r', rfl, hk, -, -⟩ := first de
    split
    · rename_i x; cases x; exact hk.elim
    · rename_i x; cases x
      rw [he]
      simp only
      rw [hr]
    · rename_i x; exact absurd rfl (x _ _)
  | condOr d dr ih ir =>
    rename_i s r c u
    intro f rest hf hs
    obtain ⟨g, rfl, hg⟩ := succ_of hf
    simp at hg
    have h := level_plain ih g (.p .quest :: .p .colon :: (r ++ rest)) (by omega)
      (stop_cons (by decide))
    have hr := ir g rest (by omega) hs
    simp only at h
    simp only [List.append_assoc, List.cons_append]
    rw [EP.conditional, h]
    simp only
    rw [hr]
  | ofCond d ih => exact assign_of_cond ih
  | assign o d dr ih ir =>
    rename_i s r t u
    intro f rest hf hs
    obtain ⟨g, rfl, hg⟩ := succ_of hf
    simp at hg
    have h := cond_of_level (level_all (cast_of_unary (first d) ih) 10) g
      (.p o.tok :: (r ++ rest)) (by omega) (stop_cons (by rw [bp_asg]; omega))
    have hr := ir g rest (by omega) hs
    simp only [List.append_assoc, List.cons_append]
    rw [EP.assign, h]
    simp only
    rw [(asgAt_iff _ _).mpr rfl]
    simp only
    rw [hr]
  | ofAssign d ih =>
    intro f rest hf hs
    obtain ⟨g, rfl, hg⟩ := succ_of hf
    have h := ih g rest (by omega) (hs.mono (by omega))
    rw [EP.expr, h]
    split
    · rename_i e; cases e
      exact absurd (hs _ _ rfl) (by decide)
    · rfl
  | comma d dr ih ir =>
    rename_i s r t u
    intro f rest hf hs
    obtain ⟨g, rfl, hg⟩ := succ_of hf
    simp at hg
    have h := ih g (.p .comma :: (r ++ rest)) (by omega) (stop_cons (by decide))
    have hr := ir g rest (by omega) hs
    simp only [List.append_assoc, List.cons_append]
    rw [EP.expr, h]
    simp only
    rw [hr]
  | assignCond o he => cases he
  | sizeEPrimary he => cases he
  | sizeTPrimary n he => cases he

end Slimcc.EPL
