import Verif.Model.Expr
import Verif.Lemmas.CInt
import Verif.Spec.CExpr
/-! 64-bit representations of the values of integer types. -/
set_option autoImplicit false
namespace Slimcc
open Slimcc.Spec Slimcc.Spec.CTy Slimcc.Ty

/-- The value of type `t` a 64-bit word stands for. -/
def nval (t : ITy) (x : BitVec 64) : Int := if t.uns then x.toNat else x.toInt

theorem cty_ity (t : CTy) : cty (ity t) = t := by cases t <;> rfl
theorem ity_wf (t : CTy) : (ity t).wf = true := by cases t <;> rfl
theorem ity_cty (t : ITy) (h : t.wf = true) : ity (cty t) = t := by
  obtain ⟨k, u⟩ := t
  cases k <;> cases u <;> first | exact absurd h (by decide) | rfl

/-- The word determines the value. -/
theorem ofInt_nval (t : ITy) (x : BitVec 64) : BitVec.ofInt 64 (nval t x) = x := by
  unfold nval
  split
  · rw [BitVec.ofInt_natCast, BitVec.ofNat_toNat, BitVec.setWidth_eq]
  · exact BitVec.ofInt_toInt

theorem toNat_ofInt64 (z : Int) : ((BitVec.ofInt 64 z).toNat : Int) = z % 18446744073709551616 := by
  rw [BitVec.toNat_ofInt]; omega

theorem toInt_ofInt64 (z : Int) : (BitVec.ofInt 64 z).toInt = (z + 9223372036854775808) % 18446744073709551616 - 9223372036854775808 := by
  rw [BitVec.toInt_ofInt]; simp only [Int.bmod]; omega

/-- Bounds all integer types satisfy. -/
theorem range_uns (t : ITy) (v : Int) (hw : t.wf = true) (hu : t.uns = true) (h : InRange (cty t) v) :
    0 ≤ v ∧ v < 18446744073709551616 := by
  have hm := mem_allTys t hw
  simp only [allTys, List.mem_cons, List.not_mem_nil, or_false] at hm
  rcases hm with rfl | rfl | rfl | rfl | rfl | rfl | rfl | rfl | rfl | rfl | rfl | rfl <;>
    first | exact absurd hu (by decide) | (simp only [cty, ty_bool, ty_uchar, ty_ushort, ty_uint, ty_ulong, ty_ullong] at h; conv_omega)

theorem range_sgn (t : ITy) (v : Int) (hw : t.wf = true) (hu : t.uns = false) (h : InRange (cty t) v) :
    -9223372036854775808 ≤ v ∧ v < 9223372036854775808 := by
  have hm := mem_allTys t hw
  simp only [allTys, List.mem_cons, List.not_mem_nil, or_false] at hm
  rcases hm with rfl | rfl | rfl | rfl | rfl | rfl | rfl | rfl | rfl | rfl | rfl | rfl <;>
    first | exact absurd hu (by decide) | (simp only [cty, ty_pchar, ty_char, ty_short, ty_int, ty_long, ty_llong] at h; conv_omega)

/-- A value of the type is recovered from its word. -/
theorem nval_ofInt (t : ITy) (v : Int) (hw : t.wf = true) (h : InRange (cty t) v) : nval t (BitVec.ofInt 64 v) = v := by
  unfold nval
  split
  · rename_i hu
    have := range_uns t v hw hu h
    rw [toNat_ofInt64]; omega
  · rename_i hu
    have := range_sgn t v hw (by simpa using hu) h
    rw [toInt_ofInt64]; omega

theorem ofInt_inj (t : ITy) (v w : Int) (hw : t.wf = true) (h : InRange (cty t) v) (h' : InRange (cty t) w)
    (e : BitVec.ofInt 64 v = BitVec.ofInt 64 w) : v = w := by
  rw [← nval_ofInt t v hw h, e, nval_ofInt t w hw h']

theorem ofInt_eq_of_emod {w : Nat} (a b : Int) (h : a % 2 ^ w = b % 2 ^ w) : BitVec.ofInt w a = BitVec.ofInt w b := by
  apply BitVec.eq_of_toNat_eq
  rw [BitVec.toNat_ofInt, BitVec.toNat_ofInt]
  congr 1

/-- `eval_sign_extend` is conversion. -/
theorem signExt_ofInt (t : ITy) (z : Int) (hw : t.wf = true) (hb : t.kind ≠ .bool) :
    signExt t (BitVec.ofInt 64 z) = BitVec.ofInt 64 (conv (cty t) z) := by
  have hs8 : (BitVec.setWidth 8 (BitVec.ofInt 64 z)).signExtend 64 = BitVec.ofInt 64 ((z + 128) % 256 - 128) := by
    apply BitVec.eq_of_toInt_eq
    rw [BitVec.toInt_signExtend_of_le (by decide), BitVec.toInt_setWidth, toInt_ofInt64]
    have := toNat_ofInt64 z
    simp only [Int.bmod]; omega
  have hs16 : (BitVec.setWidth 16 (BitVec.ofInt 64 z)).signExtend 64 = BitVec.ofInt 64 ((z + 32768) % 65536 - 32768) := by
    apply BitVec.eq_of_toInt_eq
    rw [BitVec.toInt_signExtend_of_le (by decide), BitVec.toInt_setWidth, toInt_ofInt64]
    have := toNat_ofInt64 z
    simp only [Int.bmod]; omega
  have hs32 : (BitVec.setWidth 32 (BitVec.ofInt 64 z)).signExtend 64 = BitVec.ofInt 64 ((z + 2147483648) % 4294967296 - 2147483648) := by
    apply BitVec.eq_of_toInt_eq
    rw [BitVec.toInt_signExtend_of_le (by decide), BitVec.toInt_setWidth, toInt_ofInt64]
    have := toNat_ofInt64 z
    simp only [Int.bmod]; omega
  have hu8 : (BitVec.setWidth 8 (BitVec.ofInt 64 z)).setWidth 64 = BitVec.ofInt 64 (z % 256) := by
    apply BitVec.eq_of_toNat_eq
    have h1 := toNat_ofInt64 z
    have h2 := toNat_ofInt64 (z % 256)
    rw [BitVec.toNat_setWidth, BitVec.toNat_setWidth]; omega
  have hu16 : (BitVec.setWidth 16 (BitVec.ofInt 64 z)).setWidth 64 = BitVec.ofInt 64 (z % 65536) := by
    apply BitVec.eq_of_toNat_eq
    have h1 := toNat_ofInt64 z
    have h2 := toNat_ofInt64 (z % 65536)
    rw [BitVec.toNat_setWidth, BitVec.toNat_setWidth]; omega
  have hu32 : (BitVec.setWidth 32 (BitVec.ofInt 64 z)).setWidth 64 = BitVec.ofInt 64 (z % 4294967296) := by
    apply BitVec.eq_of_toNat_eq
    have h1 := toNat_ofInt64 z
    have h2 := toNat_ofInt64 (z % 4294967296)
    rw [BitVec.toNat_setWidth, BitVec.toNat_setWidth]; omega
  have hs64 : BitVec.ofInt 64 z = BitVec.ofInt 64 ((z + 9223372036854775808) % 18446744073709551616 - 9223372036854775808) := by
    apply ofInt_eq_of_emod; omega
  have hu64 : BitVec.ofInt 64 z = BitVec.ofInt 64 (z % 18446744073709551616) := by
    apply ofInt_eq_of_emod; omega
  obtain ⟨k, u⟩ := t
  cases k <;> cases u <;> first
    | exact absurd hw (by decide)
    | exact absurd rfl hb
    | exact hs8 | exact hs16 | exact hs32 | exact hu8 | exact hu16 | exact hu32 | exact hs64 | exact hu64

/-- Words of values of a type are fixed by the extension. -/
theorem signExt_id (t : ITy) (v : Int) (hw : t.wf = true) (hb : t.kind ≠ .bool) (h : InRange (cty t) v) :
    signExt t (BitVec.ofInt 64 v) = BitVec.ofInt 64 v := by
  rw [signExt_ofInt t v hw hb, conv_id _ _ h]

theorem b64_truth (p : Prop) [Decidable p] : b64 (decide p) = BitVec.ofInt 64 (truth p) := by
  unfold b64 truth
  by_cases h : p <;> simp [h]

theorem bne_eq (x y : BitVec 64) : (x != y) = decide (x ≠ y) := by
  rw [Bool.eq_iff_iff]; simp

theorem beq_eq (x y : BitVec 64) : (x == y) = decide (x = y) := by
  rw [Bool.eq_iff_iff]; simp

/-- `eval`'s cast is conversion. -/
theorem evalCastTo_ofInt (t t0 : ITy) (v : Int) (hw : t.wf = true) (hw0 : t0.wf = true) (h : InRange (cty t0) v) :
    evalCastTo t (BitVec.ofInt 64 v) = BitVec.ofInt 64 (conv (cty t) v) := by
  unfold evalCastTo
  split
  · rename_i hb
    rw [(cty_bool t).2 hb, conv_bool]
    by_cases hv : v = 0
    · subst hv; decide
    · have hne : BitVec.ofInt 64 v ≠ 0 := by
        intro hc
        have h0 : InRange (cty t0) 0 := by
          have key : ∀ t ∈ allTys, InRange (cty t) 0 := by decide
          exact key t0 (mem_allTys t0 hw0)
        exact hv (ofInt_inj t0 v 0 hw0 h h0 hc)
      rw [if_neg hv]
      rw [bne_eq, b64_truth]; unfold truth; rw [if_pos hne]
  · rename_i hb
    exact signExt_ofInt t v hw hb

/-- Any word after a cast is the word of a value of the type. -/
theorem evalCastTo_norm (t : ITy) (x : BitVec 64) (hw : t.wf = true) :
    ∃ v, InRange (cty t) v ∧ evalCastTo t x = BitVec.ofInt 64 v := by
  unfold evalCastTo
  split
  · rename_i hb
    refine ⟨truth (x ≠ 0), ?_, ?_⟩
    · rw [(cty_bool t).2 hb, range_bool]; unfold truth; split <;> decide
    · rw [← b64_truth, bne_eq]
  · rename_i hb
    refine ⟨conv (cty t) x.toInt, conv_range _ _, ?_⟩
    rw [← signExt_ofInt t _ hw hb, BitVec.ofInt_toInt]

end Slimcc
