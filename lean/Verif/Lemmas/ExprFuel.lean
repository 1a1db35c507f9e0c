/-
The fuel handed to the parser never runs out: beyond a bound linear in the
number of tokens, more of it changes nothing.
-/
import Verif.Lemmas.ExprSound
set_option autoImplicit false

namespace Slimcc.EPL
open Slimcc.Gram Slimcc.EP

theorem derives_pos {ext : Bool} {nt : NT} {s : List ETok} {t : Tree}
    (d : Derives ext nt s t) : 0 < s.length := by
  induction d <;> simp_all <;> omega

structure Shorter (f : Nat) : Prop where
  expr : ∀ (ts : List ETok) (t : Tree) (r : List ETok), expr f ts = some (t, r) →
    r.length < ts.length
  assign : ∀ (ts : List ETok) (t : Tree) (r : List ETok), assign f ts = some (t, r) →
    r.length < ts.length
  conditional : ∀ (ts : List ETok) (t : Tree) (r : List ETok),
    conditional f ts = some (t, r) → r.length < ts.length
  binary : ∀ (k : Nat) (ts : List ETok) (t : Tree) (r : List ETok), k ≤ 10 →
    binary f k ts = some (t, r) → r.length < ts.length
  cast : ∀ (ts : List ETok) (t : Tree) (r : List ETok), cast f ts = some (t, r) →
    r.length < ts.length
  unary : ∀ (ts : List ETok) (t : Tree) (r : List ETok), unary f ts = some (t, r) →
    r.length < ts.length
  primary : ∀ (ts : List ETok) (t : Tree) (r : List ETok), primary f ts = some (t, r) →
    r.length < ts.length
  args0 : ∀ (b : Bool) (ts : List ETok) (t : Tree) (r : List ETok),
    arguments f b ts = some (t, r) → r.length < ts.length

theorem shorter (f : Nat) : Shorter f := by
  have key : ∀ {nt : NT} {ts r : List ETok} {t : Tree},
      (∃ s : List ETok, ts = s ++ r ∧ Derives true nt s t) → r.length < ts.length := by
    rintro nt ts r t ⟨s, rfl, d⟩
    have := derives_pos d
    simp
    omega
  have S := sound f
  constructor
  · exact fun ts t r h => key (S.expr _ _ _ h)
  · exact fun ts t r h => key (S.assign _ _ _ h)
  · exact fun ts t r h => key (S.conditional _ _ _ h)
  · exact fun k ts t r hk h => key (S.binary _ _ _ _ hk h)
  · exact fun ts t r h => key (S.cast _ _ _ h)
  · exact fun ts t r h => key (S.unary _ _ _ h)
  · exact fun ts t r h => key (S.primary _ _ _ h)
  · intro b ts t r h
    cases b with
    | false =>
      rcases S.args0 _ _ _ h with ⟨rfl, -⟩ | ⟨s, rfl, -⟩
      · simp
      · simp; omega
    | true =>
      rcases S.args1 _ _ _ h with ⟨rfl, -⟩ | ⟨s, rfl, -⟩
      · simp
      · simp; omega

/-- With enough fuel on both sides, the amount makes no difference. -/
structure Stable (f : Nat) : Prop where
  expr : ∀ (f' : Nat) (ts : List ETok), 40 * ts.length + 17 ≤ f →
    40 * ts.length + 17 ≤ f' → expr f ts = expr f' ts
  assign : ∀ (f' : Nat) (ts : List ETok), 40 * ts.length + 16 ≤ f →
    40 * ts.length + 16 ≤ f' → assign f ts = assign f' ts
  conditional : ∀ (f' : Nat) (ts : List ETok), 40 * ts.length + 15 ≤ f →
    40 * ts.length + 15 ≤ f' → conditional f ts = conditional f' ts
  binary : ∀ (f' k : Nat) (ts : List ETok), k ≤ 10 → 40 * ts.length + 4 + k ≤ f →
    40 * ts.length + 4 + k ≤ f' → binary f k ts = binary f' k ts
  loop : ∀ (f' k : Nat) (a : Tree) (ts : List ETok), k < 10 → 40 * ts.length + 1 ≤ f →
    40 * ts.length + 1 ≤ f' → binaryLoop f k a ts = binaryLoop f' k a ts
  cast : ∀ (f' : Nat) (ts : List ETok), 40 * ts.length + 3 ≤ f →
    40 * ts.length + 3 ≤ f' → cast f ts = cast f' ts
  unary : ∀ (f' : Nat) (ts : List ETok), 40 * ts.length + 2 ≤ f →
    40 * ts.length + 2 ≤ f' → unary f ts = unary f' ts
  primary : ∀ (f' : Nat) (ts : List ETok), 40 * ts.length + 1 ≤ f →
    40 * ts.length + 1 ≤ f' → primary f ts = primary f' ts
  post : ∀ (f' : Nat) (a : Tree) (ts : List ETok), 40 * ts.length + 1 ≤ f →
    40 * ts.length + 1 ≤ f' → postfixOps f a ts = postfixOps f' a ts
  args : ∀ (f' : Nat) (b : Bool) (ts : List ETok), 40 * ts.length + 18 ≤ f →
    40 * ts.length + 18 ≤ f' → arguments f b ts = arguments f' b ts

theorem stable_zero : Stable 0 := by
  constructor <;> intros <;> omega

theorem pred_of {n f : Nat} (h : n + 1 ≤ f) : ∃ g : Nat, f = g + 1 ∧ n ≤ g :=
  ⟨f - 1, by omega, by omega⟩

theorem stable_succ {f : Nat} (ih : Stable f) : Stable (f + 1) := by
  have S := shorter
  constructor
  · intro f' ts h h'
    obtain ⟨g, rfl, hg⟩ := pred_of h'
    rw [EP.expr, EP.expr, ← ih.assign g ts (by omega) (by omega)]
    split
    · rename_i a r e
      have := (S f).assign _ _ _ e
      simp at this
      rw [← ih.expr g r (by omega) (by omega)]
    · rfl
  · intro f' ts h h'
    obtain ⟨g, rfl, hg⟩ := pred_of h'
    rw [EP.assign, EP.assign, ← ih.conditional g ts (by omega) (by omega)]
    split
    · rename_i a t r e
      have := (S f).conditional _ _ _ e
      simp at this
      rw [← ih.assign g r (by omega) (by omega)]
    · rfl
  · intro f' ts h h'
    obtain ⟨g, rfl, hg⟩ := pred_of h'
    rw [EP.conditional, EP.conditional, ← ih.binary g 10 ts (by omega) (by omega) (by omega)]
    split
    · rename_i a r e
      have := (S f).binary _ _ _ _ (by omega) e
      simp at this
      rw [← ih.conditional g r (by omega) (by omega)]
    · rename_i a r _ e
      have := (S f).binary _ _ _ _ (by omega) e
      simp at this
      rw [← ih.expr g r (by omega) (by omega)]
      split
      · rename_i b r₂ e₂
        have h₂ := (S f).expr _ _ _ e₂
        simp at h₂
        rw [← ih.conditional g r₂ (by omega) (by omega)]
      · rfl
    · rfl
  · intro f' k ts hk h h'
    obtain ⟨g, rfl, hg⟩ := pred_of (n := 40 * ts.length + 3 + k) (f := f') (by omega)
    cases k with
    | zero => rw [EP.binary, EP.binary, ih.cast g ts (by omega) (by omega)]
    | succ k =>
      rw [EP.binary, EP.binary, ← ih.binary g k ts (by omega) (by omega) (by omega)]
      split
      · rename_i a r e
        have := (S f).binary _ _ _ _ (by omega) e
        exact ih.loop g k a r (by omega) (by omega) (by omega)
      · rfl
  · intro f' k a ts hk h h'
    obtain ⟨g, rfl, hg⟩ := pred_of h'
    cases ts with
    | nil => rw [EP.binaryLoop, EP.binaryLoop]
    | cons t r =>
      simp at h hg
      rw [EP.binaryLoop, EP.binaryLoop, ← ih.binary g k r (by omega) (by omega) (by omega)]
      split
      · split
        · rename_i b r' e
          have := (S f).binary _ _ _ _ (by omega) e
          exact ih.loop g k _ r' (by omega) (by omega) (by omega)
        · rfl
      · rfl
  · intro f' ts h h'
    obtain ⟨g, rfl, hg⟩ := pred_of h'
    have hu := ih.unary g ts (by omega) (by omega)
    have hc : ∀ (n : Nat) (r : List ETok), ts = .p .lpar :: .ty n :: .p .rpar :: r →
        EP.cast f r = EP.cast g r := by
      rintro n r rfl
      simp at h hg
      exact ih.cast g r (by omega) (by omega)
    unfold EP.cast
    split
    · rename_i e; cases e
    · rename_i e; cases e
      rw [hc _ _ rfl]
    · rfl
    · rename_i e _ _; cases e
      exact hu
  · intro f' ts h h'
    obtain ⟨g, rfl, hg⟩ := pred_of h'
    unfold EP.unary
    split
    · rename_i e; cases e
    · rename_i e; cases e
      simp at h hg
      rw [ih.unary g _ (by omega) (by omega)]
    · rename_i e; cases e
      simp at h hg
      rw [ih.unary g _ (by omega) (by omega)]
    · rfl
    · rfl
    · rename_i t r _ _ _ e
      cases e
      have hp := ih.primary g (t :: r) (by omega) (by omega)
      simp at h hg
      rw [ih.cast g r (by omega) (by omega), ← hp]
      split
      · rfl
      · split
        · rename_i a r' e
          have := (S f).primary _ _ _ e
          simp at this
          exact ih.post g a r' (by omega) (by omega)
        · rfl
  · intro f' ts h h'
    obtain ⟨g, rfl, hg⟩ := pred_of h'
    unfold EP.primary
    split
    · rename_i e; cases e
    · rename_i e; cases e
      simp at h hg
      rw [ih.expr g _ (by omega) (by omega)]
    · rfl
    · rfl
    · rename_i e; cases e
      simp at h hg
      rw [ih.unary g _ (by omega) (by omega)]
    · rfl
    · rfl
    · rfl
  · intro f' a ts h h'
    obtain ⟨g, rfl, hg⟩ := pred_of h'
    unfold EP.postfixOps
    split
    · rename_i e; cases e
    · rename_i e; cases e
      simp at h hg
      rw [← ih.args g _ _ (by omega) (by omega)]
      split
      · rename_i b r' e
        have := (S f).args0 _ _ _ _ e
        exact ih.post g _ r' (by omega) (by omega)
      · rfl
    · rename_i e; cases e
      simp at h hg
      rw [← ih.expr g _ (by omega) (by omega)]
      split
      · rename_i b r' e
        have := (S f).expr _ _ _ e
        simp at this
        exact ih.post g _ r' (by omega) (by omega)
      · rfl
    · rename_i e; cases e
      simp at h hg
      exact ih.post g _ _ (by omega) (by omega)
    · rfl
    · rename_i e; cases e
      simp at h hg
      exact ih.post g _ _ (by omega) (by omega)
    · rfl
    · rename_i e; cases e
      simp at h hg
      exact ih.post g _ _ (by omega) (by omega)
    · rename_i e; cases e
      simp at h hg
      exact ih.post g _ _ (by omega) (by omega)
    · rfl
  · intro f' b ts h h'
    obtain ⟨g, rfl, hg⟩ := pred_of h'
    have key : ∀ r : List ETok, r.length ≤ ts.length →
        (match EP.assign f r with
          | some (a, r) =>
            match EP.arguments f true r with
            | some (m, r') => some (Tree.args a m, r')
            | none => none
          | none => none) =
        (match EP.assign g r with
          | some (a, r) =>
            match EP.arguments g true r with
            | some (m, r') => some (Tree.args a m, r')
            | none => none
          | none => none) := by
      intro r hr
      rw [← ih.assign g r (by omega) (by omega)]
      split
      · rename_i a r' e
        have := (S f).assign _ _ _ e
        rw [← ih.args g true r' (by omega) (by omega)]
      · rfl
    unfold EP.arguments
    split
    · rename_i e; cases e
    · rfl
    · rename_i e _; cases e
      exact key _ (Nat.le_refl _)
    · rename_i e; cases e
      exact key _ (by simp)
    · rfl

theorem stable (f : Nat) : Stable f := by
  induction f with
  | zero => exact stable_zero
  | succ f ih => exact stable_succ ih

end Slimcc.EPL
