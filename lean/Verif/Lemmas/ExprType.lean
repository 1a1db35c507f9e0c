import Verif.Model.ExprType
import Verif.Props.C14
import Verif.Props.C15
/-!
Lemmas on the types of expressions.
-/
set_option autoImplicit false
namespace Slimcc.ExprType
open Slimcc.Spec Slimcc.Ty Slimcc.Props

/-! ### Arithmetic -/

theorem caty_atyOf (a : CATy) : caty (atyOf a) = a := by
  cases a with
  | i t => cases t <;> rfl
  | _ => rfl

theorem operand_atyOf (a : CATy) : Operand (atyOf a) none := by
  cases a with
  | i t => exact ⟨by cases t <;> rfl, fun w h => nomatch h⟩
  | _ => rfl

theorem commonArith_eq (q r : XQ) (a b : CATy) :
    commonArith (q, .arith a) (r, .arith b) = some (XQ.none, .arith ((a.promote none).common (b.promote none))) := by
  have h := C14_common_type (atyOf a) (atyOf b) none none (operand_atyOf a) (operand_atyOf b)
  rw [caty_atyOf, caty_atyOf] at h
  rw [commonArith]
  cases hg : get_common_type (atyOf a) none (atyOf b) none with
  | none => rw [hg] at h; cases h
  | some r =>
    rw [hg] at h
    simp only [Option.map_some, Option.some.injEq] at h
    simp only [Option.map_some, h]

theorem intPromotion_eq (q : XQ) (t : CTy) :
    ∃ q', intPromotion (q, .arith (.i t)) = some (q', .arith (CATy.promote (.i t) none)) := by
  cases t <;> first | exact ⟨_, rfl⟩

theorem promote_flo (a : CATy) (h : a.isInt = false) : a.promote none = a := by
  cases a <;> first | rfl | cases h

theorem isInteger_arith (q : XQ) (a : CATy) : isInteger (q, .arith a) = a.isInt := by
  cases a <;> rfl

theorem isNumeric_arith (q : XQ) (a : CATy) : isNumeric (q, .arith a) = true := by
  cases a <;> rfl

/-! ### Compatibility -/

theorem emb_quals (t : XTy) : (emb t).quals = ⟨false, false, false, false⟩ := by
  cases t with
  | arith a => cases a with
    | i t => cases t <;> rfl
    | _ => rfl
  | _ => rfl

theorem embQ_quals (q : XQ) (t : XTy) : (embQ q (emb t)).quals = ⟨false, q.c, q.v, false⟩ := by
  rw [embQ]
  by_cases h : q = XQ.none
  · rw [if_pos h, emb_quals, h]; rfl
  · rw [if_neg h]; rfl

theorem embQ_quals_iff (q r : XQ) (a b : XTy) :
    (embQ q (emb a)).quals = (embQ r (emb b)).quals ↔ q = r := by
  rw [embQ_quals, embQ_quals]
  cases q; cases r; simp

theorem compat_embQ (q r : XQ) (a b : CT) : Compat (embQ q a) (embQ r b) ↔ Compat a b := by
  constructor
  · intro h
    have h1 : Compat a (embQ r b) := by
      rw [embQ] at h
      by_cases hq : q = XQ.none
      · rwa [if_pos hq] at h
      · rw [if_neg hq] at h; exact h.unwrapL
    rw [embQ] at h1
    by_cases hr : r = XQ.none
    · rwa [if_pos hr] at h1
    · rw [if_neg hr] at h1; exact h1.unwrapR
  · intro h
    have h1 : Compat a (embQ r b) := by
      rw [embQ]
      by_cases hr : r = XQ.none
      · rwa [if_pos hr]
      · rw [if_neg hr]; exact .wrapR _ _ _ h
    rw [embQ]
    by_cases hq : q = XQ.none
    · rwa [if_pos hq]
    · rw [if_neg hq]; exact .wrapL _ _ _ h1

/-- The length field of an array. -/
theorem len_iff (n m : Option Nat) :
    ((0 : Int) ≤ (match n with | some n => (n : Int) | none => -1) →
      (0 : Int) ≤ (match m with | some n => (n : Int) | none => -1) →
      (match n with | some n => (n : Int) | none => -1) = (match m with | some n => (n : Int) | none => (-1 : Int))) ↔
    (n.isNone || m.isNone || n == m) = true := by
  cases n <;> cases m <;> simp
  omega

theorem emb_compat : ∀ a b : XTy, Compat (emb a) (emb b) ↔ a.compat b = true := by
  intro a
  induction a with
  | void =>
    intro b
    cases b with
    | void => exact ⟨fun _ => rfl, fun _ => .nominal _ _⟩
    | arith x =>
      cases x with
      | i t => cases t <;> exact ⟨fun h => (by cases h), fun h => (by cases h)⟩
      | _ => exact ⟨fun h => (by cases h), fun h => (by cases h)⟩
    | _ => exact ⟨fun h => (by cases h), fun h => (by cases h)⟩
  | arith x =>
    intro b
    cases b with
    | arith y =>
      constructor
      · intro h
        cases x with
        | i t =>
          cases y with
          | i t' => cases t <;> cases t' <;> first | rfl | (exfalso; revert h; intro h; cases h)
          | _ => cases t <;> cases h
        | _ =>
          cases y with
          | i t' => cases t' <;> cases h
          | _ => first | rfl | cases h
      · intro h
        have e : x = y := of_decide_eq_true (by simpa [XTy.compat] using h)
        subst e
        exact Compat.refl _
    | _ =>
      cases x with
      | i t => cases t <;> exact ⟨fun h => (by cases h), fun h => (by cases h)⟩
      | _ => exact ⟨fun h => (by cases h), fun h => (by cases h)⟩
  | struct i =>
    intro b
    cases b with
    | struct j =>
      constructor
      · intro h; cases h; simp [XTy.compat]
      · intro h
        have e : i = j := by simpa [XTy.compat] using h
        subst e; exact Compat.refl _
    | arith x =>
      cases x with
      | i t => cases t <;> exact ⟨fun h => (by cases h), fun h => (by cases h)⟩
      | _ => exact ⟨fun h => (by cases h), fun h => (by cases h)⟩
    | _ => exact ⟨fun h => (by cases h), fun h => (by cases h)⟩
  | ptr q a ih =>
    intro b
    cases b with
    | ptr r b =>
      simp only [XTy.compat, Bool.and_eq_true, beq_iff_eq]
      rw [← ih b, ← embQ_quals_iff q r a b, ← compat_embQ q r (emb a) (emb b)]
      constructor
      · intro h; cases h with | ptr _ _ _ _ h1 h2 => exact ⟨h1, h2⟩
      · intro h; exact .ptr _ _ _ _ h.1 h.2
    | arith x =>
      cases x with
      | i t => cases t <;> exact ⟨fun h => (by cases h), fun h => (by cases h)⟩
      | _ => exact ⟨fun h => (by cases h), fun h => (by cases h)⟩
    | _ => exact ⟨fun h => (by cases h), fun h => (by cases h)⟩
  | arr q a n ih =>
    intro b
    cases b with
    | arr r b m =>
      have e : (XTy.arr q a n).compat (.arr r b m) = true ↔
          (q = r ∧ a.compat b = true) ∧ (n.isNone || m.isNone || n == m) = true := by
        simp only [XTy.compat, Bool.and_eq_true, beq_iff_eq]
      rw [e, ← ih b, ← embQ_quals_iff q r a b, ← compat_embQ q r (emb a) (emb b), ← len_iff]
      constructor
      · intro h; cases h with | array _ _ _ _ _ _ h1 h2 h3 => exact ⟨⟨h1, h2⟩, h3⟩
      · intro h; exact .array _ _ _ _ _ _ h.1.1 h.1.2 h.2
    | arith x =>
      cases x with
      | i t => cases t <;> exact ⟨fun h => (by cases h), fun h => (by cases h)⟩
      | _ => exact ⟨fun h => (by cases h), fun h => (by cases h)⟩
    | _ => exact ⟨fun h => (by cases h), fun h => (by cases h)⟩
  | fn a p ih =>
    intro b
    cases b with
    | fn b r =>
      simp only [XTy.compat, Bool.and_eq_true, beq_iff_eq]
      rw [← ih b]
      constructor
      · intro h
        cases h with
        | func _ _ _ _ _ _ _ h1 h2 =>
          cases h2 with
          | cons _ _ _ _ h3 _ => cases h3; exact ⟨h1, rfl⟩
      · intro h
        obtain ⟨h1, h2⟩ := h
        subst h2
        exact .func _ _ _ _ _ _ _ h1 (CompatParams.refl _)
    | arith x =>
      cases x with
      | i t => cases t <;> exact ⟨fun h => (by cases h), fun h => (by cases h)⟩
      | _ => exact ⟨fun h => (by cases h), fun h => (by cases h)⟩
    | _ => exact ⟨fun h => (by cases h), fun h => (by cases h)⟩

theorem compatible_eq (E : Env) (hs : Identity E.same) (a b : M) : compatible E a b = a.2.compat b.2 := by
  have h1 := C15_compatible_iff E.same hs (embQ a.1 (emb a.2)) (embQ b.1 (emb b.2))
  have h2 := (compat_embQ a.1 b.1 (emb a.2) (emb b.2)).trans (emb_compat a.2 b.2)
  have h3 : compatible E a b = true ↔ a.2.compat b.2 = true := h1.trans h2
  exact Bool.eq_iff_iff.mpr h3

end Slimcc.ExprType
