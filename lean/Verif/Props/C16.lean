import Verif.Lemmas.CInt
/-!
C16: dropping redundant integer casts never changes a value.
-/
set_option autoImplicit false
namespace Slimcc.Props
open Slimcc Slimcc.Spec Slimcc.Spec.CTy Slimcc.Ty

/-- Whenever the compiler drops the inner of two casts `(ty)(ty2)e` with `e` of type `ty3`, the
value is the same for every value of `ty3`. -/
theorem C16_redundant_cast (ty ty2 ty3 : ITy) (h1 : ty.wf = true) (h2 : ty2.wf = true) (h3 : ty3.wf = true)
    (v : Int) (hv : InRange (cty ty3) v) (hr : is_redundant_cast ty ty2 ty3 = true) :
    conv (cty ty) (conv (cty ty2) v) = conv (cty ty) v := by
  -- either the inner cast is to a type at least as wide as the outer, or it preserves the value,
  -- or the outer is `bool` and the inner preserves being zero
  have key : ∀ ty ∈ allTys, ∀ ty2 ∈ allTys, ∀ ty3 ∈ allTys, is_redundant_cast ty ty2 ty3 = true →
      (cty ty ≠ .bool ∧ cty ty2 ≠ .bool ∧ (cty ty).width ≤ (cty ty2).width) ∨
      ((cty ty2).minVal ≤ (cty ty3).minVal ∧ (cty ty3).maxVal ≤ (cty ty2).maxVal) ∨
      (cty ty = .bool ∧ cty ty2 ≠ .bool ∧ (cty ty3).width ≤ (cty ty2).width) := by decide +kernel
  rcases key ty (mem_allTys _ h1) ty2 (mem_allTys _ h2) ty3 (mem_allTys _ h3) hr with ⟨a, b, c⟩ | ⟨a, b⟩ | ⟨a, b, c⟩
  · exact conv_conv _ _ v a b c
  · rw [conv_id (cty ty2) v ⟨Int.le_trans a hv.1, Int.le_trans hv.2 b⟩]
  · rw [a, conv_bool, conv_bool]
    have hz : conv (cty ty2) v = 0 ↔ v = 0 := by
      constructor
      · intro h0
        have hd := Int.dvd_of_emod_eq_zero (conv_congr (cty ty2) v b)
        rw [h0] at hd
        have hd' : (2 : Int) ^ (cty ty3).width ∣ 0 - v := Int.dvd_trans (pow_dvd c) hd
        revert hv hd'
        cases cty ty3 <;> intro hv hd' <;> simp only [width] at hd' <;> have := Int.emod_eq_zero_of_dvd hd' <;> conv_omega
      · rintro rfl
        exact conv_id _ _ (by cases cty ty2 <;> decide)
    simp only [hz]

/-- The check is not trivial: it accepts and rejects. -/
example : is_redundant_cast ty_int ty_long ty_short = true ∧ is_redundant_cast ty_long ty_uint ty_int = false := by
  decide

/-- It is also exact for the rejected case of a widening change of sign: there the value differs. -/
theorem C16_rejected_differs :
    is_redundant_cast ty_long ty_uint ty_int = false ∧
    conv (cty ty_long) (conv (cty ty_uint) (-1)) ≠ conv (cty ty_long) (-1) := by decide

/-- The test is exact: when it says no (and not both casts are to `_Bool`), some value of the innermost type is changed by the inner cast. -/
theorem C16_exact (ty ty2 ty3 : ITy) (h1 : ty.wf = true) (h2 : ty2.wf = true) (h3 : ty3.wf = true)
    (hr : is_redundant_cast ty ty2 ty3 = false) :
    (∃ v, InRange (cty ty3) v ∧ conv (cty ty) (conv (cty ty2) v) ≠ conv (cty ty) v) ∨
    (ty.kind = .bool ∧ ty2.kind = .bool) := by
  have key : ∀ ty ∈ allTys, ∀ ty2 ∈ allTys, ∀ ty3 ∈ allTys, is_redundant_cast ty ty2 ty3 = false →
      (∃ v ∈ ([-1, 2, 128, 256, 32768, 65536, 2147483648, 4294967296, 9223372036854775808] : List Int),
        InRange (cty ty3) v ∧ conv (cty ty) (conv (cty ty2) v) ≠ conv (cty ty) v) ∨
      (ty.kind = .bool ∧ ty2.kind = .bool) := by decide +kernel
  rcases key ty (mem_allTys _ h1) ty2 (mem_allTys _ h2) ty3 (mem_allTys _ h3) hr with ⟨v, _, h⟩ | h
  · exact Or.inl ⟨v, h⟩
  · exact Or.inr h

end Slimcc.Props
