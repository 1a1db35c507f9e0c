import Verif.Model.Gen
import Verif.Lemmas.NodeSem
/-! Words in registers and memory. -/
set_option autoImplicit false
namespace Slimcc
open Slimcc.Spec Slimcc.Spec.CTy Slimcc.Ty Slimcc.X86 Slimcc.Gen

theorem sw_zx (n w : Nat) (x : Word) (h : w ≤ 8 * n) : (zx n x).setWidth w = x.setWidth w := by
  unfold zx
  ext i hi
  simp only [BitVec.getElem_setWidth, BitVec.getLsbD_setWidth]
  by_cases h64 : i < 64
  · simp [h64, show i < 8 * n by omega]
  · simp [h64, BitVec.getLsbD_of_ge x i (by omega)]

theorem sw_sx (n w : Nat) (x : Word) (h : w ≤ 8 * n) (h' : w ≤ 64) : (sx n x).setWidth w = x.setWidth w := by
  unfold sx
  ext i hi
  simp only [BitVec.getElem_setWidth, BitVec.getLsbD_signExtend]
  simp [show i < 64 by omega, show i < 8 * n by omega]

theorem sw_sw (x : Word) (k w : Nat) (h : w ≤ k) : (x.setWidth k).setWidth w = x.setWidth w :=
  BitVec.setWidth_setWidth_of_le x h

theorem zx_congr (n : Nat) (x y : Word) (h : x.setWidth (8 * n) = y.setWidth (8 * n)) : zx n x = zx n y := by
  unfold zx; rw [h]
theorem sx_congr (n : Nat) (x y : Word) (h : x.setWidth (8 * n) = y.setWidth (8 * n)) : sx n x = sx n y := by
  unfold sx; rw [h]

theorem zx8 (x : Word) : zx 8 x = x := by unfold zx; simp
theorem sx8 (x : Word) : sx 8 x = x := by unfold sx; simp

theorem zx_zx (n : Nat) (x : Word) : zx n (zx n x) = zx n x :=
  zx_congr n _ _ (sw_zx n _ x (Nat.le_refl _))
theorem sx_zx (n : Nat) (x : Word) : sx n (zx n x) = sx n x :=
  sx_congr n _ _ (sw_zx n _ x (Nat.le_refl _))

theorem zx_toNat (n : Nat) (x : Word) (h : n ≤ 8) : (zx n x).toNat = x.toNat % 2 ^ (8 * n) := by
  unfold zx
  rw [BitVec.toNat_setWidth, BitVec.toNat_setWidth]
  apply Nat.mod_eq_of_lt
  have h1 : x.toNat % 2 ^ (8 * n) < 2 ^ (8 * n) := Nat.mod_lt _ (Nat.two_pow_pos _)
  have h2 : 2 ^ (8 * n) ≤ 2 ^ 64 := Nat.pow_le_pow_right (by decide) (by omega)
  omega

theorem sw_ofInt (w : Nat) (v : Int) (h : w ≤ 64) : (BitVec.ofInt 64 v).setWidth w = BitVec.ofInt w v := by
  apply BitVec.eq_of_toNat_eq
  rw [BitVec.toNat_setWidth, BitVec.toNat_ofInt, BitVec.toNat_ofInt]
  have h2 : ((2 : Int) ^ w) ∣ 2 ^ 64 := by
    refine ⟨2 ^ (64 - w), ?_⟩
    rw [← Int.pow_add, Nat.add_sub_cancel' h]
  have e : v % 2 ^ 64 % 2 ^ w = v % 2 ^ w := Int.emod_emod_of_dvd v h2
  have hp : (0 : Int) < 2 ^ 64 := by decide
  have hw : (0 : Int) < 2 ^ w := Int.pow_pos (by decide)
  have n1 : 0 ≤ v % (2 : Int) ^ 64 := Int.emod_nonneg _ (by decide)
  apply Int.ofNat_inj.1
  have e1 : (((v % ((2 ^ 64 : Nat) : Int)).toNat % 2 ^ w : Nat) : Int) = v % 2 ^ 64 % 2 ^ w := by
    rw [Int.natCast_emod, Int.toNat_of_nonneg (by exact_mod_cast n1)]
    norm_cast
  have e2 : (((v % ((2 ^ w : Nat) : Int)).toNat : Nat) : Int) = v % 2 ^ w := by
    rw [Int.toNat_of_nonneg]
    · norm_cast
    · apply Int.emod_nonneg; exact_mod_cast (Int.ne_of_gt hw)
  rw [e1, e2, e]

theorem rop_cases (t : ITy) : rop t = 4 ∨ rop t = 8 := by unfold rop; split <;> simp

theorem put_of_rop (sz : Nat) (old new : Word) (h : sz = 4 ∨ sz = 8) : put sz old new = zx sz new := by
  rcases h with rfl | rfl
  · rfl
  · rw [zx8]; rfl

/-- The register `x` holds the value `v` of an operand of size `sz` (the upper half is unspecified
for 32-bit operands). -/
def Low (sz : Nat) (v : Int) (x : Word) : Prop := x.setWidth (8 * sz) = BitVec.ofInt (8 * sz) v

theorem Low.of_eq (sz : Nat) (v : Int) (h : sz ≤ 8) : Low sz v (BitVec.ofInt 64 v) := sw_ofInt _ _ (by omega)

theorem Low.zx {sz : Nat} {v : Int} {x : Word} (h : Low sz v x) : Low sz v (zx sz x) := by
  unfold Low at *; rw [sw_zx _ _ _ (Nat.le_refl _), h]

theorem Low.eq8 {v : Int} {x : Word} (h : Low 8 v x) : x = BitVec.ofInt 64 v := by
  unfold Low at h; simpa using h

theorem Low.mono {sz k : Nat} {v : Int} {x : Word} (h : Low sz v x) (hk : k ≤ sz) (h8 : sz ≤ 8) : Low k v x := by
  unfold Low at *
  rw [← sw_sw x (8 * sz) (8 * k) (by omega), h, ← sw_ofInt (8 * sz) v (by omega), sw_sw _ _ _ (by omega), sw_ofInt _ _ (by omega)]

theorem Low.zx_eq {sz : Nat} {v : Int} {x : Word} (h : Low sz v x) (h8 : sz ≤ 8) : X86.zx sz x = X86.zx sz (BitVec.ofInt 64 v) :=
  zx_congr sz _ _ (by rw [h, sw_ofInt _ _ (by omega)])
theorem Low.sx_eq {sz : Nat} {v : Int} {x : Word} (h : Low sz v x) (h8 : sz ≤ 8) : X86.sx sz x = X86.sx sz (BitVec.ofInt 64 v) :=
  sx_congr sz _ _ (by rw [h, sw_ofInt _ _ (by omega)])

theorem Low.of_zx_eq {sz : Nat} {v : Int} {x : Word} (h8 : sz ≤ 8) (h : X86.zx sz x = X86.zx sz (BitVec.ofInt 64 v)) : Low sz v x := by
  unfold Low
  rw [← sw_zx sz _ x (Nat.le_refl _), h, sw_zx _ _ _ (Nat.le_refl _), sw_ofInt _ _ (by omega)]

/-- Congruent values are represented alike. -/
theorem Low.congr {sz : Nat} {v w : Int} {x : Word} (h : Low sz v x) (e : (2 : Int) ^ (8 * sz) ∣ v - w) : Low sz w x := by
  unfold Low at *
  rw [h]
  exact ofInt_eq_of_emod _ _ (Int.emod_emod_eq_of_dvd v w e)
where
  Int.emod_emod_eq_of_dvd (v w : Int) {m : Int} (e : m ∣ v - w) : v % m = w % m := by
    exact Int.emod_eq_emod_iff_emod_sub_eq_zero.2 (Int.emod_eq_zero_of_dvd e)

theorem conv_dvd (t : CTy) (v : Int) (k : Nat) (hb : t ≠ .bool) (h : 8 * k ≤ t.width) : (2 : Int) ^ (8 * k) ∣ v - conv t v := by
  have h1 : (2 : Int) ^ t.width ∣ conv t v - v := Int.dvd_of_emod_eq_zero (conv_congr t v hb)
  have h2 := Int.dvd_trans (pow_dvd h) h1
  have := Int.dvd_neg.2 h2
  refine Int.dvd_trans this ⟨1, by omega⟩

theorem Low.conv {sz : Nat} {v : Int} {x : Word} (h : Low sz v x) (t : CTy) (hb : t ≠ .bool) (hw : 8 * sz ≤ t.width) :
    Low sz (CTy.conv t v) x := h.congr (conv_dvd t v sz hb hw)

/-- `signExt` in terms of the extensions of the machine. -/
theorem signExt_eq (t : ITy) (x : Word) : signExt t x = if t.uns then zx t.size x else sx t.size x := by
  have h : t.size = 1 ∨ t.size = 2 ∨ t.size = 4 ∨ t.size = 8 := by
    obtain ⟨k, u⟩ := t; cases k <;> simp [ITy.size, IKind.size]
  unfold signExt
  rcases h with h | h | h | h <;> rw [h]
  · rfl
  · rfl
  · rfl
  · rw [zx8, sx8]; simp

theorem size_le (t : ITy) : t.size ≤ 8 ∧ 1 ≤ t.size := by
  obtain ⟨k, u⟩ := t; cases k <;> simp [ITy.size, IKind.size]
theorem size_cases (t : ITy) : t.size = 1 ∨ t.size = 2 ∨ t.size = 4 ∨ t.size = 8 := by
  obtain ⟨k, u⟩ := t; cases k <;> simp [ITy.size, IKind.size]

/-- Extension gives back a value of the type. -/
theorem signExt_val (t : ITy) (v : Int) (hw : t.wf = true) (h : InRange (cty t) v) :
    signExt t (BitVec.ofInt 64 v) = BitVec.ofInt 64 v := by
  by_cases hb : t.kind = .bool
  · obtain ⟨k, u⟩ := t
    simp only at hb; subst hb
    rw [(cty_bool _).2 rfl, range_bool] at h
    cases u with
    | false => exact absurd hw (by decide)
    | true =>
      have : v = 0 ∨ v = 1 := by omega
      rcases this with rfl | rfl <;> decide
  · exact signExt_id t v hw hb h

/-- Extension of the low bytes of a word that holds a value of the type. -/
theorem ext_low (t : ITy) (v : Int) (x : Word) (hw : t.wf = true) (h : InRange (cty t) v) (hx : Low t.size v x) :
    (if t.uns then zx t.size x else sx t.size x) = BitVec.ofInt 64 v := by
  rw [hx.zx_eq (size_le t).1, hx.sx_eq (size_le t).1, ← signExt_eq, signExt_val t v hw h]

end Slimcc
