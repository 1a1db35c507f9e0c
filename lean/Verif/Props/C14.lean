import Verif.Lemmas.CInt
/-!
C14: integer promotions and usual arithmetic conversions follow C.
-/
set_option autoImplicit false
namespace Slimcc.Props
open Slimcc Slimcc.Spec Slimcc.Spec.CTy Slimcc.Ty

/-- Promotion of an operand that is not a bit-field. -/
theorem C14_promotion (t : ITy) (h : t.wf = true) :
    (int_promotion t none).map cty = some (cty t).promote := by
  obtain ⟨k, u⟩ := t
  cases k <;> cases u <;> first | exact absurd h (by decide) | decide

/-- Promotion of a bit-field of any legal width. -/
theorem C14_bitfield_promotion (t : ITy) (h : t.wf = true) (w : Nat) (h1 : 1 ≤ w) (hw : w ≤ (cty t).width) :
    (int_promotion t (some w)).map cty = some ((cty t).promoteBits w) := by
  have key : ∀ w, w ≤ 64 → ∀ t ∈ allTys, 1 ≤ w → w ≤ (cty t).width →
      (int_promotion t (some w)).map cty = some ((cty t).promoteBits w) := by decide +kernel
  have hle : (cty t).width ≤ 64 := by cases h : cty t <;> decide
  exact key w (by omega) t (mem_allTys t h) h1 hw

/-- An operand: a well-formed type, and a legal width if it is a bit-field. -/
def Operand (t : ATy) (bw : Option Nat) : Prop :=
  match t with
  | .i it => it.wf = true ∧ ∀ w, bw = some w → 1 ≤ w ∧ w ≤ (cty it).width
  | _ => bw = none

/-- Every promoted type has rank at least `int`. -/
theorem promoted_mem (t : ITy) (bw : Option Nat) (h : Operand (.i t) bw) :
    ∃ p, int_promotion t bw = some p ∧ p ∈ [ty_int, ty_uint, ty_long, ty_ulong, ty_llong, ty_ullong] ∧
      CATy.promote (.i (cty t)) bw = .i (cty p) := by
  obtain ⟨hwf, hbw⟩ := h
  cases bw with
  | none =>
    have h1 := C14_promotion t hwf
    have key : ∀ t ∈ allTys, ∃ p ∈ [ty_int, ty_uint, ty_long, ty_ulong, ty_llong, ty_ullong],
      int_promotion t none = some p := by decide
    obtain ⟨p, hp, e⟩ := key t (mem_allTys t hwf)
    rw [e] at h1
    exact ⟨p, e, hp, by simp only [CATy.promote]; rw [← Option.some.inj h1]⟩
  | some w =>
    obtain ⟨hw1, hw2⟩ := hbw w rfl
    have h1 := C14_bitfield_promotion t hwf w hw1 hw2
    have hle : (cty t).width ≤ 64 := by cases h : cty t <;> decide
    have key : ∀ w, w ≤ 64 → ∀ t ∈ allTys, 1 ≤ w → w ≤ (cty t).width →
      ∃ p ∈ [ty_int, ty_uint, ty_long, ty_ulong, ty_llong, ty_ullong], int_promotion t (some w) = some p := by
        decide +kernel
    obtain ⟨p, hp, e⟩ := key w (by omega) t (mem_allTys t hwf) hw1 hw2
    rw [e] at h1
    exact ⟨p, e, hp, by simp only [CATy.promote]; rw [← Option.some.inj h1]⟩

/-- For every pair of arithmetic operands (bit-fields included) the common type is the one of the
usual arithmetic conversions; in particular no internal error is reached. -/
theorem C14_common_type (t1 t2 : ATy) (bw1 bw2 : Option Nat) (h1 : Operand t1 bw1) (h2 : Operand t2 bw2) :
    (get_common_type t1 bw1 t2 bw2).map caty = some (((caty t1).promote bw1).common ((caty t2).promote bw2)) := by
  have key : ∀ p1 ∈ [ty_int, ty_uint, ty_long, ty_ulong, ty_llong, ty_ullong],
      ∀ p2 ∈ [ty_int, ty_uint, ty_long, ty_ulong, ty_llong, ty_ullong],
      (common_promoted p1 p2).map cty = some ((cty p1).common (cty p2)) := by decide
  cases t1 with
  | i t1 =>
    obtain ⟨p1, e1, m1, c1⟩ := promoted_mem t1 bw1 h1
    cases t2 with
    | i t2 =>
      obtain ⟨p2, e2, m2, c2⟩ := promoted_mem t2 bw2 h2
      simp only [get_common_type, e1, e2, caty, c1, c2, CATy.common]
      have := key p1 m1 p2 m2
      cases hc : common_promoted p1 p2 with
      | none => rw [hc] at this; exact absurd this (by simp)
      | some c =>
        rw [hc] at this
        have h := Option.some.inj this
        simp only [reduceCtorEq, decide_false, Bool.or_self, Bool.false_eq_true, if_false, Option.map_some, caty, h]
    | float => simp only [caty, c1]; rfl
    | double => simp only [caty, c1]; rfl
    | ldouble => simp only [caty, c1]; rfl
  | float =>
    cases t2 with
    | i t2 =>
      obtain ⟨p2, e2, m2, c2⟩ := promoted_mem t2 bw2 h2
      simp only [caty, c2]; rfl
    | float => rfl
    | double => rfl
    | ldouble => rfl
  | double =>
    cases t2 with
    | i t2 =>
      obtain ⟨p2, e2, m2, c2⟩ := promoted_mem t2 bw2 h2
      simp only [caty, c2]; rfl
    | float => rfl
    | double => rfl
    | ldouble => rfl
  | ldouble =>
    cases t2 with
    | i t2 =>
      obtain ⟨p2, e2, m2, c2⟩ := promoted_mem t2 bw2 h2
      simp only [caty, c2]; rfl
    | float => rfl
    | double => rfl
    | ldouble => rfl

example : Operand (.i ty_ulong) (some 33) ∧ Operand (.i ty_bool) none ∧ Operand .double none := by
  refine ⟨⟨rfl, ?_⟩, ⟨rfl, by simp⟩, rfl⟩
  intro w h; cases h; decide

/-- The choice does not depend on the order of the operands. -/
theorem C14_symmetric (t1 t2 : ATy) (bw1 bw2 : Option Nat) (h1 : Operand t1 bw1) (h2 : Operand t2 bw2) :
    get_common_type t1 bw1 t2 bw2 = get_common_type t2 bw2 t1 bw1 := by
  have key : ∀ p1 ∈ [ty_int, ty_uint, ty_long, ty_ulong, ty_llong, ty_ullong],
      ∀ p2 ∈ [ty_int, ty_uint, ty_long, ty_ulong, ty_llong, ty_ullong],
      common_promoted p1 p2 = common_promoted p2 p1 := by decide
  cases t1 with
  | i t1 =>
    cases t2 with
    | i t2 =>
      obtain ⟨p1, e1, m1, _⟩ := promoted_mem t1 bw1 h1
      obtain ⟨p2, e2, m2, _⟩ := promoted_mem t2 bw2 h2
      simp only [get_common_type, e1, e2, reduceCtorEq, decide_false, Bool.or_self, Bool.false_eq_true, if_false]
      rw [key p1 m1 p2 m2]
    | float => rfl
    | double => rfl
    | ldouble => rfl
  | float => cases t2 <;> rfl
  | double => cases t2 <;> rfl
  | ldouble => cases t2 <;> rfl

/-- Converting an operand of integer type to the common type keeps its value unless it is negative
and the common type is unsigned. -/
theorem C14_value_preserved (t1 t2 c : ITy) (h1 : t1.wf = true) (h2 : t2.wf = true)
    (hc : get_common_type (.i t1) none (.i t2) none = some (.i c)) (v : Int) (hv : InRange (cty t1) v)
    (hs : 0 ≤ v ∨ (cty c).isSigned = true) : conv (cty c) v = v := by
  have key : ∀ t1 ∈ allTys, ∀ t2 ∈ allTys, ∀ c ∈ allTys, get_common_type (.i t1) none (.i t2) none = some (.i c) →
      (cty t1).maxVal ≤ (cty c).maxVal ∧ ((cty c).isSigned = true → (cty c).minVal ≤ (cty t1).minVal) ∧
      (cty c).minVal ≤ 0 := by
    decide +kernel
  have key2 : ∀ t1 ∈ allTys, ∀ t2 ∈ allTys, ∀ c, get_common_type (.i t1) none (.i t2) none = some (.i c) → c ∈ allTys := by
    intro t1 m1 t2 m2 c
    have : ∀ t1 ∈ allTys, ∀ t2 ∈ allTys, ∃ c ∈ allTys, get_common_type (.i t1) none (.i t2) none = some (.i c) := by
      decide +kernel
    obtain ⟨c', m, e⟩ := this t1 m1 t2 m2
    rw [e]; intro h; cases h; exact m
  obtain ⟨a, b, z⟩ := key t1 (mem_allTys _ h1) t2 (mem_allTys _ h2) c (key2 t1 (mem_allTys _ h1) t2 (mem_allTys _ h2) c hc) hc
  apply conv_id
  refine ⟨?_, Int.le_trans hv.2 a⟩
  rcases hs with hs | hs
  · exact Int.le_trans z hs
  · exact Int.le_trans (b hs) hv.1

end Slimcc.Props
