import Verif.Lemmas.AddrOp
import Verif.Lemmas.BitField
import Verif.Model.BitOp
import Verif.Spec.BitOp
/-! Compound assignments and increments of bit-fields. -/
set_option autoImplicit false
namespace Slimcc.AGen
open Slimcc Slimcc.Spec Slimcc.Spec.CTy Slimcc.Ty Slimcc.X86 Slimcc.Gen Slimcc.Addr

theorem promote_idem (t : CTy) : t.promote.promote = t.promote := by cases t <;> rfl

/-- Two results that agree modulo 2^32. -/
def Cong (w : Nat) (a b : Int) : Prop := ((2 ^ w : Nat) : Int) ∣ a - b

theorem cong_conv (c : CTy) (x : Int) (w : Nat) (hb : c ≠ .bool) (hw : w ≤ c.width) : Cong w (conv c x) x := by
  have h := Int.dvd_of_emod_eq_zero (conv_congr c x hb)
  refine Int.dvd_trans ?_ h
  exact_mod_cast Nat.pow_dvd_pow 2 hw

theorem Cong.symm {w : Nat} {a b : Int} (h : Cong w a b) : Cong w b a := by
  obtain ⟨k, hk⟩ := h; exact ⟨-k, by rw [Int.mul_neg]; omega⟩
theorem Cong.trans {w : Nat} {a b c : Int} (h : Cong w a b) (h' : Cong w b c) : Cong w a c := by
  have := Int.dvd_add h h'
  unfold Cong; rwa [show a - b + (b - c) = a - c by omega] at this
theorem Cong.add {w : Nat} {a b c d : Int} (h : Cong w a b) (h' : Cong w c d) : Cong w (a + c) (b + d) := by
  have := Int.dvd_add h h'
  unfold Cong; rwa [show a - b + (c - d) = a + c - (b + d) by omega] at this
theorem Cong.sub {w : Nat} {a b c d : Int} (h : Cong w a b) (h' : Cong w c d) : Cong w (a - c) (b - d) := by
  have := Int.dvd_sub h h'
  unfold Cong; rwa [show a - b - (c - d) = a - c - (b - d) by omega] at this
theorem Cong.mul {w : Nat} {a b c d : Int} (h : Cong w a b) (h' : Cong w c d) : Cong w (a * c) (b * d) := by
  have h1 : ((2 ^ w : Nat) : Int) ∣ (a - b) * c := Int.dvd_mul_of_dvd_left h
  have h2 : ((2 ^ w : Nat) : Int) ∣ b * (c - d) := Int.dvd_mul_of_dvd_right h'
  have := Int.dvd_add h1 h2
  unfold Cong
  have e : (a - b) * c + b * (c - d) = a * c - b * d := by rw [Int.sub_mul, Int.mul_sub]; omega
  rwa [e] at this
theorem Cong.rfl {w : Nat} {a : Int} : Cong w a a := ⟨0, by omega⟩

theorem cong_iff (w : Nat) (a b : Int) : Cong w a b ↔ BitVec.ofInt w a = BitVec.ofInt w b := by
  unfold Cong
  constructor
  · intro h
    apply BitVec.eq_of_toNat_eq
    simp only [BitVec.toNat_ofInt]
    congr 1
    exact Int.emod_eq_emod_iff_emod_sub_eq_zero.2 (Int.emod_eq_zero_of_dvd h)
  · intro h
    have := congrArg BitVec.toNat h
    simp only [BitVec.toNat_ofInt] at this
    have hp : ((2 ^ w : Nat) : Int) ≠ 0 := by have := Nat.two_pow_pos w; omega
    have h1 := Int.emod_nonneg a hp
    have h2 := Int.emod_nonneg b hp
    exact Int.dvd_of_emod_eq_zero (Int.emod_eq_emod_iff_emod_sub_eq_zero.1 (by omega))

theorem cong_bits {w : Nat} (hw : w ≤ 64) (f : BitVec 64 → BitVec 64 → BitVec 64) (g : BitVec w → BitVec w → BitVec w)
    (hf : ∀ x y, (f x y).setWidth w = g (x.setWidth w) (y.setWidth w)) {a b c d : Int} (h : Cong w a b) (h' : Cong w c d) :
    Cong w (f (BitVec.ofInt 64 a) (BitVec.ofInt 64 c)).toInt (f (BitVec.ofInt 64 b) (BitVec.ofInt 64 d)).toInt := by
  have key : ∀ x : BitVec 64, BitVec.ofInt w x.toInt = x.setWidth w := by
    intro x
    have := sw_ofInt w x.toInt (by omega)
    rw [BitVec.ofInt_toInt] at this
    exact this.symm
  rw [cong_iff] at h h' ⊢
  rw [key, key, hf, hf, sw_ofInt _ _ hw, sw_ofInt _ _ hw, sw_ofInt _ _ hw, sw_ofInt _ _ hw, h, h']

theorem common_facts (a b : CTy) : common a.promote b.promote ≠ .bool ∧ 32 ≤ (common a.promote b.promote).width ∧
    a.promote.maxVal ≤ (common a.promote b.promote).maxVal ∧ b.maxVal ≤ (common a.promote b.promote).maxVal ∧
    (common a.promote b.promote).minVal ≤ 0 := by
  cases a <;> cases b <;> decide

theorem cong_arith {w : Nat} (hw : w ≤ 32) (o : ArOp) (ho : o ≠ .div ∧ o ≠ .mod) (c1 c2 : CTy) (h1 : c1 ≠ .bool ∧ 32 ≤ c1.width) (h2 : c2 ≠ .bool ∧ 32 ≤ c2.width)
    {a b a' b' x : Int} (ha : Cong w a a') (hb : Cong w b b') (h : arith c1 o a b = .ok x) : ∃ y, arith c2 o a' b' = .ok y ∧ Cong w y x := by
  have k1 : ∀ z, Cong w (conv c1 z) z := fun z => cong_conv c1 z w h1.1 (by omega)
  have k2 : ∀ z, Cong w (conv c2 z) z := fun z => cong_conv c2 z w h2.1 (by omega)
  cases o with
  | add => simp only [arith, Res.ok.injEq] at h; subst h; exact ⟨_, rfl, (k2 _).trans ((ha.add hb).symm.trans (k1 _).symm)⟩
  | sub => simp only [arith, Res.ok.injEq] at h; subst h; exact ⟨_, rfl, (k2 _).trans ((ha.sub hb).symm.trans (k1 _).symm)⟩
  | mul => simp only [arith, Res.ok.injEq] at h; subst h; exact ⟨_, rfl, (k2 _).trans ((ha.mul hb).symm.trans (k1 _).symm)⟩
  | div => exact absurd rfl ho.1
  | mod => exact absurd rfl ho.2
  | band =>
    simp only [arith, Res.ok.injEq] at h; subst h
    exact ⟨_, rfl, (k2 _).trans ((cong_bits (by omega) _ (· &&& ·) (fun x y => by simp) ha hb).symm.trans (k1 _).symm)⟩
  | bor =>
    simp only [arith, Res.ok.injEq] at h; subst h
    exact ⟨_, rfl, (k2 _).trans ((cong_bits (by omega) _ (· ||| ·) (fun x y => by simp) ha hb).symm.trans (k1 _).symm)⟩
  | bxor =>
    simp only [arith, Res.ok.injEq] at h; subst h
    exact ⟨_, rfl, (k2 _).trans ((cong_bits (by omega) _ (· ^^^ ·) (fun x y => by simp) ha hb).symm.trans (k1 _).symm)⟩

theorem promoteBits_cases (t : CTy) (w : Nat) (hw : 1 ≤ w) :
    (t.promoteBits w = .int ∧ w ≤ 32 ∧ bitMax t w ≤ int.maxVal) ∨ (t.promoteBits w = .uint ∧ w ≤ 32 ∧ bitMax t w ≤ uint.maxVal) ∨ t.promoteBits w = t := by
  have hp : 33 ≤ w → (2 : Int) ^ 32 ≤ 2 ^ (w - 1) := fun h => by
    exact_mod_cast Nat.pow_le_pow_right (by decide : 0 < 2) (show 32 ≤ w - 1 by omega)
  have hp' : 33 ≤ w → (2 : Int) ^ 33 ≤ 2 ^ w := fun h => by
    exact_mod_cast Nat.pow_le_pow_right (by decide : 0 < 2) (show 33 ≤ w by omega)
  unfold promoteBits
  split
  · rename_i h
    simp only [intFits, Bool.and_eq_true, decide_eq_true_eq] at h
    refine .inl ⟨rfl, ?_, h.2⟩
    have hm := h.2
    simp only [show int.maxVal = 2147483647 by decide] at hm
    unfold bitMax at hm
    refine Nat.le_of_not_lt fun hc => ?_
    have := hp (by omega)
    have := hp' (by omega)
    simp only [show (2 : Int) ^ 32 = 4294967296 by decide, show (2 : Int) ^ 33 = 8589934592 by decide] at *
    split at hm <;> omega
  · split
    · rename_i h
      simp only [Bool.and_eq_true, decide_eq_true_eq] at h
      refine .inr (.inl ⟨rfl, ?_, h.2⟩)
      obtain ⟨hn, hm⟩ := h
      simp only [show uint.maxVal = 4294967295 by decide] at hm
      unfold bitMax at hm
      unfold bitMin at hn
      refine Nat.le_of_not_lt fun hc => ?_
      have := hp (by omega)
      have := hp' (by omega)
      simp only [show (2 : Int) ^ 32 = 4294967296 by decide, show (2 : Int) ^ 33 = 8589934592 by decide] at *
      split at hm
      · rename_i hs
        rw [if_pos hs] at hn
        have hz : (0 : Int) < 2 ^ (w - 1) := Int.pow_pos (by decide)
        exact absurd hn (Int.not_le.2 (Int.neg_neg_of_pos hz))
      · omega
    · exact .inr (.inr rfl)

/-- The operation on the declared type gives the same bits as the one on the promoted type. -/
theorem field_op (op : BinOp) (t u : CTy) (w : Nat) (hw : 1 ≤ w) (hwt : w ≤ t.width) (old v x : Int) (ho : old ≤ bitMax t w) (hv : v ≤ u.maxVal)
    (hd : (op ≠ .ar .div ∧ op ≠ .ar .mod) ∨ (0 ≤ old ∧ 0 ≤ v) ∨ t.promoteBits w = t.promote)
    (hop : binop op (t.promoteBits w) u old v = .ok x) :
    ∃ y, binop op t u old v = .ok y ∧ BitVec.ofInt w (conv t y) = BitVec.ofInt w (conv t x) := by
  by_cases he : (t.promoteBits w).promote = t.promote
  · refine ⟨x, ?_, rfl⟩
    rw [← hop]
    unfold binop
    rw [he]
  · have hb : t ≠ .bool := by
      rintro rfl
      have : w = 1 := by have : CTy.bool.width = 1 := rfl; omega
      subst this
      exact he rfl
    have hnt : t.promoteBits w ≠ t := fun e => he (by rw [e])
    have hnp : t.promoteBits w ≠ t.promote := fun e => he (by rw [e, promote_idem])
    have hP : ((t.promoteBits w).promote = t.promoteBits w ∧ (t.promoteBits w).width = 32) ∧ w ≤ 32 ∧ bitMax t w ≤ (t.promoteBits w).maxVal := by
      rcases promoteBits_cases t w hw with ⟨e, h1, h2⟩ | ⟨e, h1, h2⟩ | e
      · rw [e]; exact ⟨⟨rfl, rfl⟩, h1, h2⟩
      · rw [e]; exact ⟨⟨rfl, rfl⟩, h1, h2⟩
      · exact absurd e hnt
    obtain ⟨⟨hp1, hp2⟩, h32, hmax⟩ := hP
    have hpw : 32 ≤ t.promote.width := by cases t <;> decide
    have hpb : t.promote ≠ .bool := by cases t <;> decide
    generalize t.promoteBits w = p at *
    have fin : ∀ y, Cong w y x → BitVec.ofInt w (conv t y) = BitVec.ofInt w (conv t x) := fun y h =>
      (cong_iff _ _ _).1 ((cong_conv t y w hb hwt).trans (h.trans (cong_conv t x w hb hwt).symm))
    cases op with
    | sh o =>
      simp only [binop] at hop ⊢
      rw [hp1] at hop
      have hpb' : p ≠ .bool := by rintro rfl; cases hp1
      cases o with
      | shl =>
        simp only [shift] at hop ⊢
        split at hop
        · rename_i hc
          rw [if_pos (by omega)]
          injection hop with hop
          subst hop
          exact ⟨_, rfl, fin _ ((cong_conv _ _ w hpb (by omega)).trans (cong_conv _ _ w hpb' (by omega)).symm)⟩
        · cases hop
      | shr =>
        simp only [shift] at hop ⊢
        split at hop
        · rename_i hc
          rw [if_pos (by omega)]
          injection hop with hop
          subst hop
          exact ⟨_, rfl, rfl⟩
        · cases hop
    | ar o =>
      simp only [binop] at hop ⊢
      obtain ⟨a1, a2, a3, a4, a5⟩ := common_facts p u
      obtain ⟨b1, b2, b3, b4, b5⟩ := common_facts t u
      rcases hd with hd | hd | hd
      · obtain ⟨y, h1, h2⟩ := cong_arith h32 o ⟨fun e => hd.1 (by rw [e]), fun e => hd.2 (by rw [e])⟩ _ _ ⟨a1, a2⟩ ⟨b1, b2⟩
          ((cong_conv _ old w a1 (by omega)).trans (cong_conv _ old w b1 (by omega)).symm)
          ((cong_conv _ v w a1 (by omega)).trans (cong_conv _ v w b1 (by omega)).symm) hop
        exact ⟨y, h1, fin y h2⟩
      · have hmt : bitMax t w ≤ t.promote.maxVal := by
          have : t.maxVal ≤ t.promote.maxVal := by cases t <;> decide
          refine Int.le_trans ?_ this
          unfold bitMax maxVal
          have h1 : (2 : Int) ^ (w - 1) ≤ 2 ^ (t.width - 1) := by exact_mod_cast Nat.pow_le_pow_right (by decide : 0 < 2) (by omega)
          have h2 : (2 : Int) ^ w ≤ 2 ^ t.width := by exact_mod_cast Nat.pow_le_pow_right (by decide : 0 < 2) hwt
          split <;> omega
        rw [hp1] at a1 a2 a3 a4 a5 hop
        generalize common p u.promote = c1 at *
        generalize common t.promote u.promote = c2 at *
        have r1 : ∀ z, 0 ≤ z → z ≤ c1.maxVal → conv c1 z = z := fun z h h' => conv_id _ _ ⟨by omega, h'⟩
        have r2 : ∀ z, 0 ≤ z → z ≤ c2.maxVal → conv c2 z = z := fun z h h' => conv_id _ _ ⟨by omega, h'⟩
        have e1 := r1 old hd.1 (by omega)
        have e2 := r2 old hd.1 (by omega)
        have e3 := r1 v hd.2 (by omega)
        have e4 := r2 v hd.2 (by omega)
        by_cases hm : o ≠ .div ∧ o ≠ .mod
        · obtain ⟨y, h1, h2⟩ := cong_arith h32 o hm _ _ ⟨a1, a2⟩ ⟨b1, b2⟩ ((cong_conv _ old w a1 (by omega)).trans (cong_conv _ old w b1 (by omega)).symm)
            ((cong_conv _ v w a1 (by omega)).trans (cong_conv _ v w b1 (by omega)).symm) hop
          exact ⟨y, h1, fin y h2⟩
        · rw [e1, e3] at hop
          rw [e2, e4]
          refine ⟨x, ?_, rfl⟩
          have hq1 : 0 ≤ old.tdiv v := Int.tdiv_nonneg hd.1 hd.2
          have hq2 : old.tdiv v ≤ old := by rw [Int.tdiv_eq_ediv_of_nonneg hd.1]; exact Int.ediv_le_self _ hd.1
          have hin : c2.minVal ≤ old.tdiv v ∧ old.tdiv v ≤ c2.maxVal := ⟨by omega, by omega⟩
          cases o with
          | div =>
            simp only [arith] at hop ⊢
            split at hop
            · cases hop
            · rename_i h0
              rw [if_neg h0, if_pos hin]
              split at hop
              · exact hop
              · cases hop
          | mod =>
            simp only [arith] at hop ⊢
            split at hop
            · cases hop
            · rename_i h0
              rw [if_neg h0, if_pos hin]
              split at hop
              · exact hop
              · cases hop
          | _ => exact absurd ⟨by simp, by simp⟩ hm
      · exact absurd hd hnp
end Slimcc.AGen
