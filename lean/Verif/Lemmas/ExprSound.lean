/-
What the expression parser accepts is derivable in the (extended) grammar, and
the tree it builds is the one the derivation stands for.
-/
import Verif.Model.ExprParse
set_option autoImplicit false

namespace Slimcc.EPL
open Slimcc.Gram Slimcc.EP

theorem opAt_iff (k : Nat) (t : ETok) (o : BinOp) :
    opAt k t = some o ↔ t = .p o.tok ∧ o.prec = k := by
  constructor
  · intro h
    unfold opAt at h
    split at h <;> first | (cases h; exact ⟨rfl, rfl⟩) | cases h
  · rintro ⟨rfl, rfl⟩
    cases o <;> rfl

theorem asgAt_iff (t : ETok) (o : AsgOp) : asgAt t = some o ↔ t = .p o.tok := by
  constructor
  · intro h
    unfold asgAt at h
    split at h <;> first | (cases h; rfl) | cases h
  · rintro rfl
    cases o <;> rfl

theorem unAt_iff (t : ETok) (o : UnOp) : unAt t = some o ↔ t = .p o.tok := by
  constructor
  · intro h
    unfold unAt at h
    split at h <;> first | (cases h; rfl) | cases h
  · rintro rfl
    cases o <;> rfl

/-- What each parsing function promises when it succeeds with fuel `f`. -/
structure Sound (f : Nat) : Prop where
  expr : ∀ (ts : List ETok) (t : Tree) (r : List ETok), expr f ts = some (t, r) →
    ∃ s : List ETok, ts = s ++ r ∧ Derives true .expression s t
  assign : ∀ (ts : List ETok) (t : Tree) (r : List ETok), assign f ts = some (t, r) →
    ∃ s : List ETok, ts = s ++ r ∧ Derives true .assignment s t
  conditional : ∀ (ts : List ETok) (t : Tree) (r : List ETok),
    conditional f ts = some (t, r) →
    ∃ s : List ETok, ts = s ++ r ∧ Derives true .conditional s t
  binary : ∀ (k : Nat) (ts : List ETok) (t : Tree) (r : List ETok), k ≤ 10 →
    binary f k ts = some (t, r) →
    ∃ s : List ETok, ts = s ++ r ∧ Derives true (.level k) s t
  loop : ∀ (k : Nat) (a : Tree) (ts : List ETok) (t : Tree) (r : List ETok), k < 10 →
    binaryLoop f k a ts = some (t, r) →
    ∃ s : List ETok, ts = s ++ r ∧ ∀ s₀ : List ETok,
      Derives true (.level (k + 1)) s₀ a → Derives true (.level (k + 1)) (s₀ ++ s) t
  cast : ∀ (ts : List ETok) (t : Tree) (r : List ETok), cast f ts = some (t, r) →
    ∃ s : List ETok, ts = s ++ r ∧ Derives true .cast s t
  unary : ∀ (ts : List ETok) (t : Tree) (r : List ETok), unary f ts = some (t, r) →
    ∃ s : List ETok, ts = s ++ r ∧ Derives true .unary s t
  primary : ∀ (ts : List ETok) (t : Tree) (r : List ETok), primary f ts = some (t, r) →
    ∃ s : List ETok, ts = s ++ r ∧ Derives true .primary s t
  post : ∀ (a : Tree) (ts : List ETok) (t : Tree) (r : List ETok),
    postfixOps f a ts = some (t, r) →
    ∃ s : List ETok, ts = s ++ r ∧ ∀ s₀ : List ETok,
      Derives true .postfix s₀ a → Derives true .postfix (s₀ ++ s) t
  args0 : ∀ (ts : List ETok) (t : Tree) (r : List ETok),
    arguments f false ts = some (t, r) →
    (ts = .p .rpar :: r ∧ t = .noArgs) ∨
    ∃ s : List ETok, ts = s ++ .p .rpar :: r ∧ Derives true .arguments s t
  args1 : ∀ (ts : List ETok) (t : Tree) (r : List ETok),
    arguments f true ts = some (t, r) →
    (ts = .p .rpar :: r ∧ t = .noArgs) ∨
    ∃ s : List ETok, ts = .p .comma :: (s ++ .p .rpar :: r) ∧ Derives true .arguments s t

theorem sound_zero : Sound 0 := by
  constructor <;> intros <;>
    simp_all [EP.expr, EP.assign, EP.conditional, EP.binary, EP.binaryLoop, EP.cast,
      EP.unary, EP.primary, EP.postfixOps, EP.arguments]

/-- An argument followed by the rest of an argument list. -/
theorem args_join {s ts r : List ETok} {a m : Tree}
    (ha : Derives true .assignment s a)
    (hm : (ts = .p .rpar :: r ∧ m = .noArgs) ∨
      ∃ s' : List ETok, ts = .p .comma :: (s' ++ .p .rpar :: r) ∧ Derives true .arguments s' m) :
    ∃ u : List ETok, s ++ ts = u ++ .p .rpar :: r ∧ Derives true .arguments u (.args a m) := by
  rcases hm with ⟨rfl, rfl⟩ | ⟨s', rfl, hd⟩
  · exact ⟨s, rfl, .lastArg ha⟩
  · exact ⟨s ++ .p .comma :: s', by simp, .moreArgs ha hd⟩

theorem sound_succ {f : Nat} (ih : Sound f) : Sound (f + 1) := by
  constructor
  · -- expr
    intro ts t r h
    rw [EP.expr] at h
    split at h
    · rename_i a r₁ h₁
      obtain ⟨s₁, rfl, d₁⟩ := ih.assign _ _ _ h₁
      split at h
      · rename_i b r₂ h₂
        obtain ⟨s₂, rfl, d₂⟩ := ih.expr _ _ _ h₂
        cases h
        exact ⟨s₁ ++ .p .comma :: s₂, by simp, .comma d₁ d₂⟩
      · cases h
    · obtain ⟨s₁, rfl, d₁⟩ := ih.assign _ _ _ h
      exact ⟨s₁, rfl, .ofAssign d₁⟩
  · -- assign
    intro ts t r h
    rw [EP.assign] at h
    split at h
    · rename_i a t₁ r₁ h₁
      obtain ⟨s₁, rfl, d₁⟩ := ih.conditional _ _ _ h₁
      split at h
      · rename_i o ho
        rw [asgAt_iff] at ho
        subst ho
        split at h
        · rename_i b r₂ h₂
          obtain ⟨s₂, rfl, d₂⟩ := ih.assign _ _ _ h₂
          cases h
          exact ⟨s₁ ++ .p o.tok :: s₂, by simp, .assignCond o rfl d₁ d₂⟩
        · cases h
      · cases h
        exact ⟨s₁, rfl, .ofCond d₁⟩
    · obtain ⟨s₁, rfl, d₁⟩ := ih.conditional _ _ _ h
      exact ⟨s₁, rfl, .ofCond d₁⟩
  · -- conditional
    intro ts t r h
    rw [EP.conditional] at h
    split at h
    · rename_i c r₁ h₁
      obtain ⟨s₁, rfl, d₁⟩ := ih.binary _ _ _ _ (Nat.le_refl _) h₁
      split at h
      · rename_i b r₂ h₂
        obtain ⟨s₂, rfl, d₂⟩ := ih.conditional _ _ _ h₂
        cases h
        exact ⟨s₁ ++ .p .quest :: .p .colon :: s₂, by simp, .condOr d₁ d₂⟩
      · cases h
    · rename_i c r₁ _ h₁
      obtain ⟨s₁, rfl, d₁⟩ := ih.binary _ _ _ _ (Nat.le_refl _) h₁
      split at h
      · rename_i a r₂ h₂
        obtain ⟨s₂, rfl, d₂⟩ := ih.expr _ _ _ h₂
        split at h
        · rename_i b r₃ h₃
          obtain ⟨s₃, rfl, d₃⟩ := ih.conditional _ _ _ h₃
          cases h
          exact ⟨s₁ ++ .p .quest :: (s₂ ++ .p .colon :: s₃), by simp, .cond d₁ d₂ d₃⟩
        · cases h
      · cases h
    · obtain ⟨s₁, rfl, d₁⟩ := ih.binary _ _ _ _ (Nat.le_refl _) h
      exact ⟨s₁, rfl, .ofLor d₁⟩
  · -- binary
    intro k ts t r hk h
    cases k with
    | zero =>
      rw [EP.binary] at h
      obtain ⟨s₁, rfl, d₁⟩ := ih.cast _ _ _ h
      exact ⟨s₁, rfl, .ofCast d₁⟩
    | succ k =>
      rw [EP.binary] at h
      split at h
      · rename_i a r₁ h₁
        obtain ⟨s₁, rfl, d₁⟩ := ih.binary _ _ _ _ (by omega) h₁
        obtain ⟨s₂, rfl, d₂⟩ := ih.loop _ _ _ _ _ (by omega) h
        exact ⟨s₁ ++ s₂, by simp, d₂ _ (.ofLevel (by omega) d₁)⟩
      · cases h
  · -- loop
    intro k a ts t r hk h
    cases ts with
    | nil =>
      rw [EP.binaryLoop] at h
      cases h
      exact ⟨[], rfl, fun s₀ d => by simpa using d⟩
    | cons t₁ r₁ =>
      rw [EP.binaryLoop] at h
      split at h
      · rename_i o ho
        obtain ⟨rfl, hp⟩ := (opAt_iff _ _ _).mp ho
        split at h
        · rename_i b r₂ h₂
          obtain ⟨s₂, rfl, d₂⟩ := ih.binary _ _ _ _ (by omega) h₂
          obtain ⟨s₃, rfl, d₃⟩ := ih.loop _ _ _ _ _ hk h
          refine ⟨.p o.tok :: (s₂ ++ s₃), by simp, fun s₀ d => ?_⟩
          have := d₃ _ (.bin o hp d d₂)
          simpa using this
        · cases h
      · cases h
        exact ⟨[], rfl, fun s₀ d => by simpa using d⟩
  · -- cast
    intro ts t r h
    unfold EP.cast at h
    split at h
    · rename_i heq; cases heq
    · rename_i f' n r₁ heq
      cases heq
      split at h
      · rename_i a r₂ h₂
        obtain ⟨s₂, rfl, d₂⟩ := ih.cast _ _ _ h₂
        cases h
        exact ⟨.p .lpar :: .ty n :: .p .rpar :: s₂, rfl, .cast n d₂⟩
      · cases h
    · cases h
    · rename_i heq _ _
      cases heq
      obtain ⟨s₁, rfl, d₁⟩ := ih.unary _ _ _ h
      exact ⟨s₁, rfl, .ofUnary d₁⟩
  · -- unary
    intro ts t r h
    unfold EP.unary at h
    split at h
    · rename_i heq; cases heq
    · rename_i heq
      cases heq
      split at h
      · rename_i a r₂ h₂
        obtain ⟨s₂, rfl, d₂⟩ := ih.unary _ _ _ h₂
        cases h
        exact ⟨_ :: s₂, rfl, .preInc d₂⟩
      · cases h
    · rename_i heq
      cases heq
      split at h
      · rename_i a r₂ h₂
        obtain ⟨s₂, rfl, d₂⟩ := ih.unary _ _ _ h₂
        cases h
        exact ⟨_ :: s₂, rfl, .preDec d₂⟩
      · cases h
    · cases h
      exact ⟨[_, _], rfl, .labelAddr _⟩
    · cases h
    · rename_i heq
      cases heq
      split at h
      · rename_i o ho
        rw [unAt_iff] at ho
        subst ho
        split at h
        · rename_i a r₂ h₂
          obtain ⟨s₂, rfl, d₂⟩ := ih.cast _ _ _ h₂
          cases h
          exact ⟨_ :: s₂, rfl, .un o d₂⟩
        · cases h
      · split at h
        · rename_i a r₂ h₂
          obtain ⟨s₂, e₂, d₂⟩ := ih.primary _ _ _ h₂
          obtain ⟨s₃, rfl, d₃⟩ := ih.post _ _ _ _ h
          exact ⟨s₂ ++ s₃, by rw [e₂]; simp, .ofPostfix (d₃ _ (.ofPrimary d₂))⟩
        · cases h
  · -- primary
    intro ts t r h
    unfold EP.primary at h
    split at h
    · rename_i heq; cases heq
    · rename_i heq
      cases heq
      split at h
      · rename_i a r₂ h₂
        obtain ⟨s₂, rfl, d₂⟩ := ih.expr _ _ _ h₂
        cases h
        exact ⟨.p .lpar :: (s₂ ++ [.p .rpar]), by simp, .paren d₂⟩
      · cases h
    · cases h
      exact ⟨[_, _, _, _], rfl, .sizeTPrimary _ rfl⟩
    · cases h
    · rename_i heq
      cases heq
      split at h
      · rename_i a r₂ h₂
        obtain ⟨s₂, rfl, d₂⟩ := ih.unary _ _ _ h₂
        cases h
        exact ⟨_ :: s₂, rfl, .sizeEPrimary rfl d₂⟩
      · cases h
    · cases h
      exact ⟨[_], rfl, .var _⟩
    · cases h
      exact ⟨[_], rfl, .num _⟩
    · cases h
  · -- post
    intro a ts t r h
    unfold EP.postfixOps at h
    split at h
    · rename_i heq; cases heq
    · rename_i heq
      cases heq
      split at h
      · rename_i b r₂ h₂
        obtain ⟨s₃, rfl, d₃⟩ := ih.post _ _ _ _ h
        rcases ih.args0 _ _ _ h₂ with ⟨rfl, rfl⟩ | ⟨s₂, rfl, d₂⟩
        · refine ⟨.p .lpar :: .p .rpar :: s₃, rfl, fun s₀ d => ?_⟩
          have := d₃ _ (.call0 d)
          simpa using this
        · refine ⟨.p .lpar :: (s₂ ++ .p .rpar :: s₃), by simp, fun s₀ d => ?_⟩
          have := d₃ _ (.call d d₂)
          simpa using this
      · cases h
    · rename_i heq
      cases heq
      split at h
      · rename_i b r₂ h₂
        obtain ⟨s₃, rfl, d₃⟩ := ih.post _ _ _ _ h
        obtain ⟨s₂, rfl, d₂⟩ := ih.expr _ _ _ h₂
        refine ⟨.p .lbrk :: (s₂ ++ .p .rbrk :: s₃), by simp, fun s₀ d => ?_⟩
        have := d₃ _ (.index d d₂)
        simpa using this
      · cases h
    · rename_i n r₁ heq
      cases heq
      obtain ⟨s₃, rfl, d₃⟩ := ih.post _ _ _ _ h
      refine ⟨_ :: _ :: s₃, rfl, fun s₀ d => ?_⟩
      have := d₃ _ (.member n d)
      simpa using this
    · cases h
    · rename_i n r₁ heq
      cases heq
      obtain ⟨s₃, rfl, d₃⟩ := ih.post _ _ _ _ h
      refine ⟨_ :: _ :: s₃, rfl, fun s₀ d => ?_⟩
      have := d₃ _ (.arrow n d)
      simpa using this
    · cases h
    · rename_i heq
      cases heq
      obtain ⟨s₃, rfl, d₃⟩ := ih.post _ _ _ _ h
      refine ⟨_ :: s₃, rfl, fun s₀ d => ?_⟩
      have := d₃ _ (.postInc d)
      simpa using this
    · rename_i heq
      cases heq
      obtain ⟨s₃, rfl, d₃⟩ := ih.post _ _ _ _ h
      refine ⟨_ :: s₃, rfl, fun s₀ d => ?_⟩
      have := d₃ _ (.postDec d)
      simpa using this
    · cases h
      exact ⟨[], rfl, fun s₀ d => by simpa using d⟩
  · -- args0
    intro ts t r h
    unfold EP.arguments at h
    split at h
    · rename_i heq; cases heq
    · cases h
      exact .inl ⟨rfl, rfl⟩
    · rename_i heq _ _
      cases heq
      split at h
      · rename_i a r₁ h₁
        obtain ⟨s₁, rfl, d₁⟩ := ih.assign _ _ _ h₁
        split at h
        · rename_i m r₂ h₂
          cases h
          exact .inr (args_join d₁ (ih.args1 _ _ _ h₂))
        · cases h
      · cases h
    · contradiction
    · contradiction
  · -- args1
    intro ts t r h
    unfold EP.arguments at h
    split at h
    · rename_i heq; cases heq
    · cases h
      exact .inl ⟨rfl, rfl⟩
    · contradiction
    · rename_i heq _
      cases heq
      split at h
      · rename_i a r₁ h₁
        obtain ⟨s₁, rfl, d₁⟩ := ih.assign _ _ _ h₁
        split at h
        · rename_i m r₂ h₂
          cases h
          obtain ⟨u, e, d⟩ := args_join d₁ (ih.args1 _ _ _ h₂)
          exact .inr ⟨u, by rw [e], d⟩
        · cases h
      · cases h
    · cases h

theorem sound (f : Nat) : Sound f := by
  induction f with
  | zero => exact sound_zero
  | succ f ih => exact sound_succ ih

end Slimcc.EPL
