import Verif.Model.BitField
import Verif.Spec.BitField
import Verif.Lemmas.Ops
/-! Bit-field accesses bit by bit. -/
set_option autoImplicit false
namespace Slimcc.BFL
open Slimcc.Spec Slimcc.Ty Slimcc.X86 Slimcc.Gen Slimcc.BF

theorem zx_bit (n : Nat) (x : Word) (i : Nat) (hi : i < 64) : (zx n x).getLsbD i = (decide (i < 8 * n) && x.getLsbD i) := by
  unfold zx; simp [hi]

theorem sx_bit (n : Nat) (x : Word) (i : Nat) (hi : i < 64) (hn : 1 ≤ n) (h8 : n ≤ 8) :
    (sx n x).getLsbD i = if i < 8 * n then x.getLsbD i else x.getLsbD (8 * n - 1) := by
  unfold sx
  rw [BitVec.getLsbD_signExtend]
  simp only [hi, decide_true, Bool.true_and, BitVec.getLsbD_setWidth]
  split
  · rename_i h; simp [h]
  · rw [BitVec.msb_eq_getLsbD_last, BitVec.getLsbD_setWidth]; simp [show 8 * n - 1 < 8 * n by omega]

/-- The words agree in their low `n` bits. -/
def Same (n : Nat) (x y : Word) : Prop := ∀ i, i < n → x.getLsbD i = y.getLsbD i

theorem Same.of_low {sz : Nat} {x y : Word} (h : SameLow sz x y) : Same (8 * sz) x y := by
  intro i hi
  have := congrArg (fun z => z.getLsbD i) h
  simpa [BitVec.getLsbD_setWidth, hi] using this

section
variable (sym : Nat → Word)

theorem loadExt_run (t : ITy) (m : MemOp) (r : Reg) (s : St) :
    ∃ s1, exec sym (loadExt t m r) s = some s1 ∧ s1.m = s.m ∧ (∀ q, q ≠ r → s1.r q = s.r q) ∧
      s1.r r = zx (rop t) (if t.uns then rd s.m (ea sym s m) t.size else sx t.size (rd s.m (ea sym s m) t.size)) := by
  have h4 : ∀ x : Word, zx 4 (sx 4 x) = zx 4 x := fun x => zx_congr 4 _ _ (sw_sx 4 _ x (Nat.le_refl _) (by omega))
  unfold loadExt
  rcases size_cases t with h | h | h | h
  · rw [if_pos (Or.inl h)]
    refine ⟨_, rfl, rfl, fun q hq => setR_other _ _ _ _ hq, ?_⟩
    rw [setR_same, put_of_rop _ _ _ (Or.inl rfl), rop_small t (by omega)]
    simp only [X86.get]
    cases t.uns <;> rfl
  · rw [if_pos (Or.inr h)]
    refine ⟨_, rfl, rfl, fun q hq => setR_other _ _ _ _ hq, ?_⟩
    rw [setR_same, put_of_rop _ _ _ (Or.inl rfl), rop_small t (by omega)]
    simp only [X86.get]
    cases t.uns <;> rfl
  · rw [if_neg (by omega)]
    refine ⟨_, rfl, rfl, fun q hq => setR_other _ _ _ _ hq, ?_⟩
    rw [setR_same, rop_small t (by omega), h, put_of_rop _ _ _ (Or.inl rfl)]
    split
    · rfl
    · rw [h4]; rfl
  · rw [if_neg (by omega)]
    refine ⟨_, rfl, rfl, fun q hq => setR_other _ _ _ _ hq, ?_⟩
    rw [setR_same, rop_8 t h, h, put_of_rop _ _ _ (Or.inr rfl), sx8, ite_self]
    rfl

theorem loadExt_bits (t : ITy) (m : MemOp) (r : Reg) (s : St) :
    ∃ s1, exec sym (loadExt t m r) s = some s1 ∧ s1.m = s.m ∧ (∀ q, q ≠ r → s1.r q = s.r q) ∧
      ∀ i, i < 8 * t.size → (s1.r r).getLsbD i = memBit s.m (ea sym s m) i := by
  obtain ⟨s1, h1, h2, h3, h4⟩ := loadExt_run sym t m r s
  refine ⟨s1, h1, h2, h3, fun i hi => ?_⟩
  have hs := size_le_rop t
  have h8 := rop_le t
  have h1 : 1 ≤ t.size := by rcases size_cases t with h | h | h | h <;> omega
  rw [h4, zx_bit _ _ _ (by omega)]
  have e : (rd s.m (ea sym s m) t.size).getLsbD i = memBit s.m (ea sym s m) i := by
    rw [rd_bits _ _ _ _ (by omega)]; simp [hi, memBit]
  split
  · rw [e]; simp; omega
  · rw [sx_bit _ _ _ (by omega) h1 (by omega), if_pos hi, e]; simp; omega

/-- `extract` brings the field down and extends it. -/
theorem extract_run (f : BF) (hw : 1 ≤ f.w) (hu : f.bo + f.w ≤ 8 * f.ty.size) (s : St) :
    ∃ s1, execs sym (extract f) s = some s1 ∧ s1.m = s.m ∧ (∀ q, q ≠ .ax → s1.r q = s.r q) ∧
      (f.ty.uns = true → ∀ i, i < 64 → (s1.r .ax).getLsbD i = (decide (i < f.w) && (s.r .ax).getLsbD (f.bo + i))) ∧
      (f.ty.uns = false → ∀ i, i < 8 * rop f.ty →
        (s1.r .ax).getLsbD i = if i < f.w then (s.r .ax).getLsbD (f.bo + i) else (s.r .ax).getLsbD (f.bo + f.w - 1)) := by
  have hs := size_le_rop f.ty
  have h8 := rop_cases f.ty
  have hsh : shft f = 8 * rop f.ty - f.w := by unfold shft rop; split <;> omega
  have hmod : ∀ n, n < 8 * rop f.ty → n % (if rop f.ty = 8 then 64 else 32) = n := by
    intro n hn
    apply Nat.mod_eq_of_lt
    rcases h8 with h | h <;> simp [h] <;> omega
  -- the first shift
  have first : ∃ s1, execs sym (if (shft f : Int) - f.bo ≠ 0 then [.shft .shl (rop f.ty) (.imm (((shft f : Int) - f.bo) % 256).toNat) .ax] else []) s = some s1 ∧
      s1.m = s.m ∧ (∀ q, q ≠ .ax → s1.r q = s.r q) ∧
      ∀ i, i < 8 * rop f.ty → shft f - f.bo ≤ i → (s1.r .ax).getLsbD i = (s.r .ax).getLsbD (i - (shft f - f.bo)) := by
    split
    · rename_i hne
      have e : (((shft f : Int) - f.bo) % 256).toNat = shft f - f.bo := by omega
      refine ⟨_, rfl, rfl, fun q hq => setR_other _ _ _ _ hq, fun i hi hi2 => ?_⟩
      rw [e]
      simp only [St.noFlags]
      rw [setR_same, put_of_rop _ _ _ h8, hmod _ (by omega), zx_bit _ _ _ (by omega)]
      simp only [shOp, BitVec.getLsbD_shiftLeft]
      simp [hi, show i < 64 by omega, show ¬ i < shft f - f.bo by omega]
    · rename_i he
      refine ⟨s, rfl, rfl, fun _ _ => rfl, fun i _ _ => ?_⟩
      rw [show shft f - f.bo = 0 by omega]; rfl
  obtain ⟨s1, a1, a2, a3, a4⟩ := first
  have b4 : ∀ i, i < f.w → (s1.r .ax).getLsbD (shft f + i) = (s.r .ax).getLsbD (f.bo + i) := by
    intro i hi
    rw [a4 _ (by omega) (by omega)]
    congr 1; omega
  unfold extract
  rw [execs_append, a1, Option.bind_some]
  refine ⟨_, rfl, a2, fun q hq => (setR_other _ _ _ _ hq).trans (a3 q hq), ?_, ?_⟩
  · intro hun i hi
    simp only [St.noFlags]
    rw [setR_same, put_of_rop _ _ _ h8, hmod _ (by omega), zx_bit _ _ _ hi, if_pos hun]
    simp only [shOp, BitVec.getLsbD_ushiftRight]
    by_cases hw' : i < f.w
    · rw [zx_bit _ _ _ (by omega), b4 i hw']
      simp [hw', show i < 8 * rop f.ty by omega, show shft f + i < 8 * rop f.ty by omega]
    · by_cases h64 : shft f + i < 64
      · rw [zx_bit _ _ _ (by omega)]
        simp [hw', show ¬ shft f + i < 8 * rop f.ty by omega]
      · rw [BitVec.getLsbD_of_ge _ _ (by omega)]; simp [hw']
  · intro hun i hi
    simp only [St.noFlags]
    rw [setR_same, put_of_rop _ _ _ h8, hmod _ (by omega), zx_bit _ _ _ (by omega), hun]
    simp only [shOp, Bool.false_eq_true, if_false, BitVec.getLsbD_sshiftRight]
    rw [BitVec.msb_eq_getLsbD_last]
    have hb := sx_bit (rop f.ty) (s1.r .ax)
    have hm : (sx (rop f.ty) (s1.r .ax)).getLsbD (64 - 1) = (s.r .ax).getLsbD (f.bo + f.w - 1) := by
      rw [hb _ (by omega) (by omega) (by omega)]
      have : (s1.r .ax).getLsbD (8 * rop f.ty - 1) = (s.r .ax).getLsbD (f.bo + f.w - 1) := by
        have := b4 (f.w - 1) (by omega)
        rw [show shft f + (f.w - 1) = 8 * rop f.ty - 1 by omega, show f.bo + (f.w - 1) = f.bo + f.w - 1 by omega] at this
        exact this
      split
      · rw [show 64 - 1 = 8 * rop f.ty - 1 by omega]; exact this
      · exact this
    rw [hm]
    by_cases hw' : i < f.w
    · rw [if_pos (by omega), hb _ (by omega) (by omega) (by omega), if_pos (by omega), b4 i hw']
      simp [hw', hi, show ¬ 64 ≤ i by omega]
    · rw [if_neg hw']
      split
      · rw [hb _ (by omega) (by omega) (by omega), if_neg (by omega)]
        have := b4 (f.w - 1) (by omega)
        rw [show shft f + (f.w - 1) = 8 * rop f.ty - 1 by omega, show f.bo + (f.w - 1) = f.bo + f.w - 1 by omega] at this
        rw [this]
        simp [hi, show ¬ 64 ≤ i by omega]
      · simp [hi, show ¬ 64 ≤ i by omega]

theorem mask_bit (w i : Nat) (hi : i < 64) : (mask w).getLsbD i = decide (i < w) := by
  unfold mask
  rw [BitVec.getLsbD_ofNat, Nat.testBit_two_pow_sub_one]; simp [hi]

theorem keep_bit (f : BF) (i : Nat) (hu : f.bo + f.w ≤ 8 * f.ty.size) (hi : i < 8 * rop f.ty) :
    (keep f).getLsbD i = !(decide (f.bo ≤ i) && decide (i < f.bo + f.w)) := by
  have h8 := rop_le f.ty
  have e : (~~~(mask f.w <<< f.bo)).getLsbD i = !(decide (f.bo ≤ i) && decide (i < f.bo + f.w)) := by
    rw [BitVec.getLsbD_not, BitVec.getLsbD_shiftLeft]
    simp only [show i < 64 by omega, decide_true, Bool.true_and]
    by_cases h : f.bo ≤ i
    · rw [mask_bit _ _ (by omega)]
      simp only [show ¬ i < f.bo by omega, h, decide_true, decide_false, Bool.not_false, Bool.true_and]
      congr 1
      exact decide_eq_decide.2 (by omega)
    · simp [h, show i < f.bo by omega]
  unfold keep
  dsimp only
  split
  · rename_i h
    have : rop f.ty = 4 := rop_small _ (by omega)
    rw [zx_bit _ _ _ (by omega), e]
    simp [show i < 32 by omega]
  · exact e

theorem immAnd_run (sz : Nat) (hsz : sz = 4 ∨ sz = 8) (r : Reg) (hr : r ≠ .dx) (v : Word) (s : St) :
    ∃ s1, execs sym (immAnd sz r v) s = some s1 ∧ s1.m = s.m ∧ (∀ q, q ≠ r → q ≠ .dx → s1.r q = s.r q) ∧
      ∀ i, i < 8 * sz → (s1.r r).getLsbD i = ((s.r r).getLsbD i && v.getLsbD i) := by
  unfold immAnd
  split
  · rename_i h
    refine ⟨_, rfl, rfl, fun q hq _ => setR_other _ _ _ _ hq, fun i hi => ?_⟩
    simp only [St.noFlags]
    rw [setR_same, put_of_rop _ _ _ hsz, zx_bit _ _ _ (by omega)]
    simp [aluOp, X86.get, h]
  · split
    · rename_i h
      refine ⟨s, rfl, rfl, fun _ _ _ => rfl, fun i hi => ?_⟩
      rw [h, show (-1 : Word) = BitVec.allOnes 64 from rfl, BitVec.getLsbD_allOnes]
      simp; omega
    · unfold immArith2
      split
      · refine ⟨_, rfl, rfl, fun q hq _ => setR_other _ _ _ _ hq, fun i hi => ?_⟩
        simp only [St.noFlags]
        rw [setR_same, put_of_rop _ _ _ hsz, zx_bit _ _ _ (by omega)]
        simp only [aluOp, X86.get, BitVec.getLsbD_and]
        rw [zx_bit _ _ _ (by omega), zx_bit _ _ _ (by omega)]
        simp [hi]
      · refine ⟨_, rfl, rfl, fun q hq hq2 => (setR_other _ _ _ _ hq).trans (setR_other _ _ _ _ hq2), fun i hi => ?_⟩
        simp only [St.noFlags]
        rw [setR_same, put_of_rop _ _ _ hsz, zx_bit _ _ _ (by omega)]
        simp only [aluOp, X86.get, BitVec.getLsbD_and]
        rw [zx_bit _ _ _ (by omega), zx_bit _ _ _ (by omega), setR_same, setR_other _ _ _ _ hr, put_of_rop _ _ _ hsz, zx_bit _ _ _ (by omega),
          zx_bit _ _ _ (by omega)]
        simp [hi]

end

/-- A write, bit by bit. -/
theorem wr_bit (m : Mem) (a : Word) (n : Nat) (v : Word) (b : Word) (j : Nat) (hj : j < 8) :
    (wr m a n v b).getLsbD j = if (b - a).toNat < n then v.getLsbD (8 * (b - a).toNat + j) else (m b).getLsbD j := by
  unfold wr
  split
  · exact byte_bits _ _ _ hj
  · rfl

theorem memBit_at (m : Mem) (a b : Word) (j : Nat) (hj : j < 8) : memBit m a (8 * (b - a).toNat + j) = (m b).getLsbD j := by
  unfold memBit
  rw [show (8 * (b - a).toNat + j) / 8 = (b - a).toNat by omega, show (8 * (b - a).toNat + j) % 8 = j by omega]
  rw [BitVec.ofNat_toNat, BitVec.setWidth_eq, BitVec.add_comm, BitVec.sub_add_cancel]

theorem off_toNat (a : Word) (k : Nat) (hk : k < 2 ^ 64) : (a + BitVec.ofNat 64 k - a).toNat = k := by
  rw [show a + BitVec.ofNat 64 k - a = BitVec.ofNat 64 k by rw [BitVec.add_comm, BitVec.add_sub_cancel]]
  rw [BitVec.toNat_ofNat, Nat.mod_eq_of_lt hk]

theorem memBit_add (m : Mem) (a : Word) (k i : Nat) : memBit m (a + BitVec.ofNat 64 k) i = memBit m a (8 * k + i) := by
  unfold memBit
  rw [show (8 * k + i) / 8 = k + i / 8 by omega, show (8 * k + i) % 8 = i % 8 by omega]
  rw [BitVec.add_assoc, ← BitVec.ofNat_add]

theorem alt_some {f : BF} {t : ITy} (h : alt f = some t) : 8 * t.size = f.w ∧ t.uns = f.ty.uns ∧ f.bo = 8 * (f.bo / 8) := by
  unfold alt at h
  split at h
  · rename_i hb
    unfold altTy at h
    repeat' split at h
    all_goals first
      | (injection h with h; subst h; refine ⟨?_, rfl, by omega⟩; simp only [ITy.size, IKind.size]; omega)
      | cases h
  · cases h

theorem bv_ext {n : Nat} {x y : BitVec n} (h : ∀ i, i < n → x.getLsbD i = y.getLsbD i) : x = y := BitVec.eq_of_getLsbD_eq h

/-- A word whose bits are the field zero-extended. -/
theorem word_zero {w : Nat} (x : BitVec w) (v : Word) (n : Nat) (hn : n ≤ 64) (h : ∀ i, i < n → v.getLsbD i = (decide (i < w) && x.getLsbD i)) :
    v.setWidth n = x.setWidth n := by
  apply bv_ext
  intro i hi
  rw [BitVec.getLsbD_setWidth, BitVec.getLsbD_setWidth, h i hi]
  simp only [hi, decide_true, Bool.true_and]
  by_cases hw : i < w
  · simp [hw]
  · simp [hw, BitVec.getLsbD_of_ge x i (by omega)]

theorem word_sign {w : Nat} (x : BitVec w) (v : Word) (n : Nat) (hn : n ≤ 64) (hw : 1 ≤ w)
    (h : ∀ i, i < n → v.getLsbD i = if i < w then x.getLsbD i else x.getLsbD (w - 1)) :
    v.setWidth n = x.signExtend n := by
  apply bv_ext
  intro i hi
  rw [BitVec.getLsbD_setWidth, BitVec.getLsbD_signExtend, h i hi, BitVec.msb_eq_getLsbD_last]

section
variable (sym : Nat → Word)

theorem load_run (f : BF) (ofs : Int) (hw : 1 ≤ f.w) (hu : f.bo + f.w ≤ 8 * f.ty.size) (s : St) (x : BitVec f.w)
    (hx : FieldIs s.m (s.r .ax + BitVec.ofInt 64 ofs) f.bo x) :
    ∃ s1, execs sym (load f ofs) s = some s1 ∧ s1.m = s.m ∧ (∀ q, q ≠ .ax → s1.r q = s.r q) ∧
      (f.ty.uns = true → s1.r .ax = x.setWidth 64) ∧
      (f.ty.uns = false → (s1.r .ax).setWidth 32 = x.signExtend 32) ∧
      (f.ty.uns = false → f.ty.size = 8 → (alt f).isNone ∨ f.w = 64 → s1.r .ax = x.signExtend 64) := by
  have h8 := size_le_rop f.ty
  have h9 := rop_le f.ty
  have h10 := four_le_rop f.ty
  unfold load
  cases ha : alt f with
  | some t =>
    obtain ⟨e1, e2, e3⟩ := alt_some ha
    dsimp only
    obtain ⟨s1, b1, b2, b3, b4⟩ := loadExt_run sym t (.off .ax (ofs + (f.bo / 8 : Nat))) .ax s
    have hs1 : 1 ≤ t.size := by rcases size_cases t with h | h | h | h <;> omega
    have hea : ea sym s (.off .ax (ofs + (f.bo / 8 : Nat))) = (s.r .ax + BitVec.ofInt 64 ofs) + BitVec.ofNat 64 (f.bo / 8) := by
      simp only [ea]
      rw [BitVec.ofInt_add, BitVec.add_assoc, BitVec.ofInt_natCast]
    have hbit : ∀ i, i < f.w → (rd s.m (ea sym s (.off .ax (ofs + (f.bo / 8 : Nat)))) t.size).getLsbD i = x.getLsbD i := by
      intro i hi
      rw [rd_bits _ _ _ _ (by omega)]
      have := hx i hi
      rw [e3, ← memBit_add, ← hea] at this
      rw [← this]
      simp [memBit, show i < 8 * t.size by omega]
    have hz : ∀ i, f.w ≤ i → (rd s.m (ea sym s (.off .ax (ofs + (f.bo / 8 : Nat)))) t.size).getLsbD i = false := by
      intro i hi
      rw [rd_bits _ _ _ _ (by omega)]
      simp [show ¬ i < 8 * t.size by omega]
    have hr := size_le_rop t
    have hr4 := four_le_rop t
    refine ⟨s1, by simp only [execs, b1, Option.bind_some], b2, b3, ?_, ?_, ?_⟩
    · intro hun
      rw [← BitVec.setWidth_eq (s1.r .ax)]
      refine word_zero x _ 64 (Nat.le_refl _) fun i hi => ?_
      rw [b4, e2, if_pos hun, zx_bit _ _ _ hi]
      by_cases hi2 : i < f.w
      · rw [hbit i hi2]; simp [hi2, show i < 8 * rop t by omega]
      · rw [hz i (by omega)]; simp [hi2]
    · intro hun
      refine word_sign x _ 32 (by omega) hw fun i hi => ?_
      rw [b4, e2, hun]
      simp only [Bool.false_eq_true, if_false]
      rw [zx_bit _ _ _ (by omega), sx_bit _ _ _ (by omega) hs1 (by omega), e1, hbit (f.w - 1) (by omega)]
      simp only [show i < 8 * rop t by omega, decide_true, Bool.true_and]
      split
      · rw [hbit i (by omega)]
      · rfl
    · intro hun _ h64
      have h64 : f.w = 64 := by simpa using h64
      have h8t : t.size = 8 := by omega
      have hbit' := fun i hi => hbit i (hi : i < f.w)
      rw [h8t] at hbit'
      rw [b4, e2, hun, rop_8 t h8t, zx8, h8t, sx8]
      simp only [ite_self]
      apply bv_ext
      intro i hi
      rw [hbit' i (by omega), BitVec.getLsbD_signExtend]
      simp [hi, show i < f.w by omega]
  | none =>
    dsimp only
    obtain ⟨s1, b1, b2, b3, b4⟩ := loadExt_bits sym f.ty (.off .ax ofs) .ax s
    obtain ⟨s2, c1, c2, c3, c4, c5⟩ := extract_run sym f hw hu s1
    have hb : ∀ i, i < f.w → (s1.r .ax).getLsbD (f.bo + i) = x.getLsbD i := fun i hi => by
      rw [b4 _ (by omega)]; exact hx i hi
    refine ⟨s2, by simp only [execs, b1, Option.bind_some, c1], c2.trans b2, fun q hq => (c3 q hq).trans (b3 q hq), ?_, ?_, ?_⟩
    · intro hun
      rw [← BitVec.setWidth_eq (s2.r .ax)]
      refine word_zero x _ 64 (Nat.le_refl _) fun i hi => ?_
      rw [c4 hun i hi]
      by_cases hi2 : i < f.w
      · rw [hb i hi2]
      · simp [hi2]
    · intro hun
      refine word_sign x _ 32 (by omega) hw fun i hi => ?_
      rw [c5 hun i (by omega), show f.bo + f.w - 1 = f.bo + (f.w - 1) by omega, hb (f.w - 1) (by omega)]
      split
      · rw [hb i (by assumption)]
      · rfl
    · intro hun hsz _
      rw [← BitVec.setWidth_eq (s2.r .ax)]
      refine word_sign x _ 64 (Nat.le_refl _) hw fun i hi => ?_
      rw [c5 hun i (by rw [rop_8 _ hsz]; exact hi), show f.bo + f.w - 1 = f.bo + (f.w - 1) by omega, hb (f.w - 1) (by omega)]
      split
      · rw [hb i (by assumption)]
      · rfl

theorem pop_run (bp : Word) (stk : Nat) (l : TLoc) (a : Word) (s : St) (hbp : s.r .bp = bp) (h : PtrAt bp stk l a s) :
    ∃ s', execs sym (popIn stk true l) s = some s' ∧ s'.r (popReg l) = a ∧ s'.m = s.m ∧ (∀ r, r ≠ popReg l → s'.r r = s.r r) := by
  cases l with
  | reg i => exact ⟨s, rfl, h, rfl, fun _ _ => rfl⟩
  | stk k =>
    refine ⟨_, rfl, ?_, rfl, fun r hr => setR_other _ _ _ _ hr⟩
    rw [popReg, setR_same]
    simp only [rsz, if_true]
    rw [put_of_rop _ _ _ (Or.inr rfl), zx8]
    simp only [X86.get, slotMem, ea, hbp]
    exact h

theorem pop_tmp (l : TLoc) : ∃ i, popReg l = .tmp i := by cases l <;> exact ⟨_, rfl⟩

/-- What a store does to memory and to %rax. -/
theorem store_run (f : BF) (bp : Word) (stk : Nat) (l : TLoc) (isVoid : Bool) (hw : 1 ≤ f.w) (hu : f.bo + f.w ≤ 8 * f.ty.size) (a : Word) (s : St)
    (hbp : s.r .bp = bp) (hl : PtrAt bp stk l a s) :
    ∃ s1, execs sym (store f stk l isVoid) s = some s1 ∧
      (∀ q, q ≠ .ax → q ≠ .cx → q ≠ .dx → q ≠ popReg l → s1.r q = s.r q) ∧
      (∀ b j, j < 8 → (s1.m b).getLsbD j =
        if f.bo ≤ 8 * (b - a).toNat + j ∧ 8 * (b - a).toNat + j < f.bo + f.w then (s.r .ax).getLsbD (8 * (b - a).toNat + j - f.bo)
        else (s.m b).getLsbD j) ∧
      (isVoid = false → f.ty.uns = true → f.w ≠ 32 → s1.r .ax = ((s.r .ax).setWidth f.w).setWidth 64) ∧
      (isVoid = false → f.ty.uns = true → f.w = 32 → (alt f).isNone → s1.r .ax = ((s.r .ax).setWidth f.w).setWidth 64) ∧
      (isVoid = false → f.ty.uns = true → (s1.r .ax).setWidth 32 = ((s.r .ax).setWidth f.w).setWidth 32) ∧
      (isVoid = false → f.ty.uns = false → (s1.r .ax).setWidth 32 = ((s.r .ax).setWidth f.w).signExtend 32) ∧
      (isVoid = false → f.ty.uns = false → f.ty.size = 8 → (alt f).isNone ∨ f.w = 64 → s1.r .ax = ((s.r .ax).setWidth f.w).signExtend 64) := by
  have h8 := size_le_rop f.ty
  have h9 := rop_cases f.ty
  obtain ⟨ti, hti⟩ := pop_tmp l
  have hnax : popReg l ≠ .ax := by rw [hti]; simp
  have hncx : popReg l ≠ .cx := by rw [hti]; simp
  have hndx : popReg l ≠ .dx := by rw [hti]; simp
  unfold store
  cases ha : alt f with
  | some t =>
    obtain ⟨e1, e2, e3⟩ := alt_some ha
    have hs1 := size_cases t
    dsimp only
    obtain ⟨s1, b1, b2, b3, b4⟩ := pop_run sym bp stk l a s hbp hl
    let s2 : St := { s1 with m := wr s1.m (a + BitVec.ofNat 64 (f.bo / 8)) t.size (X86.get sym s1 t.size (.reg .ax)) }
    have hst : exec sym (.mov t.size (.reg .ax) (.mem (.off (popReg l) (f.bo / 8 : Nat)))) s1 = some s2 := by
      simp only [exec, put', ea, b2]
      rw [BitVec.ofInt_natCast]
    have hax : s1.r .ax = s.r .ax := b4 _ (Ne.symm hnax)
    have hm : ∀ b j, j < 8 → (s2.m b).getLsbD j =
        if f.bo ≤ 8 * (b - a).toNat + j ∧ 8 * (b - a).toNat + j < f.bo + f.w then (s.r .ax).getLsbD (8 * (b - a).toNat + j - f.bo)
        else (s.m b).getLsbD j := by
      intro b j hj
      show (wr s1.m _ _ _ b).getLsbD j = _
      rw [wr_bit _ _ _ _ _ _ hj, b3]
      have hsub : (b - (a + BitVec.ofNat 64 (f.bo / 8))).toNat = ((b - a).toNat + (2 ^ 64 - f.bo / 8)) % 2 ^ 64 := by
        rw [show b - (a + BitVec.ofNat 64 (f.bo / 8)) = (b - a) - BitVec.ofNat 64 (f.bo / 8) by
          rw [BitVec.sub_eq_add_neg, BitVec.neg_add, BitVec.sub_eq_add_neg, BitVec.sub_eq_add_neg, BitVec.sub_eq_add_neg, BitVec.add_assoc]]
        rw [BitVec.toNat_sub, BitVec.toNat_ofNat, Nat.mod_eq_of_lt (by omega : f.bo / 8 < 2 ^ 64), Nat.add_comm]
      have hlt := (b - a).isLt
      by_cases hin : f.bo / 8 ≤ (b - a).toNat
      · have hsub' : (b - (a + BitVec.ofNat 64 (f.bo / 8))).toNat = (b - a).toNat - f.bo / 8 := by
          rw [hsub]; omega
        rw [hsub']
        by_cases hin2 : (b - a).toNat - f.bo / 8 < t.size
        · rw [if_pos hin2, if_pos (by omega)]
          simp only [X86.get]
          rw [zx_bit _ _ _ (by omega), hax, show 8 * ((b - a).toNat - f.bo / 8) + j = 8 * (b - a).toNat + j - f.bo by omega, decide_eq_true (by omega), Bool.true_and]
        · rw [if_neg hin2, if_neg (by omega)]
      · rw [if_neg (by rw [hsub]; omega), if_neg (by omega)]
    have hlo : ∀ n, n ≤ f.w → (s.r .ax).setWidth n = ((s.r .ax).setWidth f.w).setWidth n := fun n hn => (sw_sw _ _ _ hn).symm
    rw [execs_append, execs_append, b1, Option.bind_some]
    simp only [execs, hst, Option.bind_some]
    by_cases hc : (!isVoid && decide (t.size < 4)) = true
    · rw [if_pos hc]
      simp only [Bool.and_eq_true, Bool.not_eq_true', decide_eq_true_eq] at hc
      have hne : f.w ≠ 32 ∧ f.w ≠ 64 := by omega
      have hv : (s2.r .ax) = s.r .ax := hax
      refine ⟨_, rfl, fun q q1 _ _ q4 => ?_, hm, ?_, ?_, ?_, ?_, ?_⟩
      · exact (setR_other _ _ _ _ q1).trans (b4 q q4)
      · intro _ hun _
        rw [setR_same, put_of_rop _ _ _ (Or.inl rfl)]
        simp only [X86.get, e2, hun, Bool.not_true, Bool.false_eq_true, if_false, hv]
        apply bv_ext
        intro i hi
        rw [zx_bit _ _ _ hi, zx_bit _ _ _ hi, BitVec.getLsbD_setWidth, BitVec.getLsbD_setWidth, e1]
        by_cases h : i < f.w
        · simp [hi, h]; omega
        · simp [h]
      · intro _ _ h; exact absurd h hne.1
      · intro _ hun
        rw [setR_same, put_of_rop _ _ _ (Or.inl rfl)]
        simp only [X86.get, e2, hun, Bool.not_true, Bool.false_eq_true, if_false, hv]
        apply bv_ext
        intro i hi
        rw [BitVec.getLsbD_setWidth, zx_bit _ _ _ (by omega), zx_bit _ _ _ (by omega), BitVec.getLsbD_setWidth, BitVec.getLsbD_setWidth, e1]
        by_cases h : i < f.w
        · simp [hi, h]
        · simp [h]
      · intro _ hun
        rw [setR_same, put_of_rop _ _ _ (Or.inl rfl)]
        simp only [X86.get, e2, hun, Bool.not_false, if_true, hv]
        refine word_sign _ _ 32 (by omega) hw fun i hi => ?_
        rw [zx_bit _ _ _ (by omega), sx_bit _ _ _ (by omega) (by omega) (by omega), e1, zx_bit _ _ _ (by omega), zx_bit _ _ _ (by omega), e1]
        simp only [BitVec.getLsbD_setWidth]
        by_cases h : i < f.w
        · simp [h]; omega
        · simp [h]; omega
      · intro _ _ _ h; simp at h; exact absurd h hne.2
    · rw [if_neg hc]
      refine ⟨s2, rfl, fun q q1 q2 q3 q4 => b4 q q4, hm, ?_, ?_, ?_, ?_, ?_⟩
      all_goals
        intro hv
        rw [hv] at hc
        simp only [Bool.not_false, Bool.true_and, decide_eq_true_eq] at hc
        show (_ → _)
        intro hun
      · intro h32
        have h64 : f.w = 64 := by omega
        show s1.r .ax = _
        rw [hax, ← hlo 64 (by omega), BitVec.setWidth_eq]
      · intro _ h; cases h
      · show (s1.r .ax).setWidth 32 = _
        rw [hax]; exact hlo 32 (by omega)
      · show (s1.r .ax).setWidth 32 = _
        rw [hax]
        refine word_sign _ _ 32 (by omega) hw fun i hi => ?_
        simp [show i < f.w by omega]
      · intro _ h
        have h64 : f.w = 64 := by simpa using h
        show s1.r .ax = _
        rw [hax]
        apply bv_ext
        intro i hi
        rw [BitVec.getLsbD_signExtend, BitVec.getLsbD_setWidth]
        simp [hi, show i < f.w by omega]
  | none =>
    dsimp only
    -- cx = value
    let s0 : St := s.setR .cx (put (rop f.ty) (s.r .cx) (X86.get sym s (rop f.ty) (.reg .ax)))
    have r0 : exec sym (.mov (rop f.ty) (.reg .ax) (.reg .cx)) s = some s0 := rfl
    have v0 : ∀ i, i < 8 * rop f.ty → (s0.r .cx).getLsbD i = (s.r .ax).getLsbD i := by
      intro i hi
      show ((s.setR .cx _).r .cx).getLsbD i = _
      rw [setR_same, put_of_rop _ _ _ h9, zx_bit _ _ _ (by omega)]
      simp only [X86.get]
      rw [zx_bit _ _ _ (by omega)]
      simp [hi]
    have o0 : ∀ q, q ≠ .cx → s0.r q = s.r q := fun q hq => setR_other _ _ _ _ hq
    obtain ⟨s1, r1, m1, o1, v1⟩ := immAnd_run sym (rop f.ty) h9 .cx (by simp) (mask f.w) s0
    have hbp1 : s1.r .bp = bp := by rw [o1 _ (by simp) (by simp), o0 _ (by simp), hbp]
    have hl1 : PtrAt bp stk l a s1 := by
      cases l with
      | reg i =>
        show s1.r (.tmp i) = a
        rw [o1 _ (by simp) (by simp), o0 _ (by simp)]; exact hl
      | stk k =>
        show rd s1.m _ 8 = a
        rw [m1]; exact hl
    obtain ⟨s2, r2, p2, m2, o2⟩ := pop_run sym bp stk l a s1 hbp1 hl1
    obtain ⟨s3, r3, m3, o3, v3⟩ := loadExt_bits sym f.ty (.off (popReg l) 0) .ax s2
    have hm3 : s3.m = s.m := m3.trans (m2.trans m1)
    have hea : ea sym s2 (.off (popReg l) 0) = a := by simp [ea, p2]
    obtain ⟨s4, r4, m4, o4, v4⟩ := immAnd_run sym (rop f.ty) h9 .ax (by simp) (keep f) s3
    have cx4 : ∀ i, i < 8 * rop f.ty → (s4.r .cx).getLsbD i = ((s.r .ax).getLsbD i && decide (i < f.w)) := by
      intro i hi
      rw [o4 _ (by simp) (by simp), o3 _ (by simp), o2 _ (Ne.symm hncx), v1 i hi, v0 i hi, mask_bit _ _ (by omega)]
    have ax4 : ∀ i, i < 8 * f.ty.size → (s4.r .ax).getLsbD i = (memBit s.m a i && !(decide (f.bo ≤ i) && decide (i < f.bo + f.w))) := by
      intro i hi
      rw [v4 i (by omega), v3 i hi, hea, keep_bit f i hu (by omega), m2, m1]
      rfl
    have hsh : ∃ s5, execs sym (if f.bo ≠ 0 then [.shft .shl (rop f.ty) (.imm f.bo) .cx] else []) s4 = some s5 ∧ s5.m = s4.m ∧
        (∀ q, q ≠ .cx → s5.r q = s4.r q) ∧
        ∀ i, i < 8 * rop f.ty → (s5.r .cx).getLsbD i = (decide (f.bo ≤ i) && (decide (i < f.bo + f.w) && (s.r .ax).getLsbD (i - f.bo))) := by
      split
      · refine ⟨_, rfl, rfl, fun q hq => setR_other _ _ _ _ hq, fun i hi => ?_⟩
        simp only [St.noFlags]
        rw [setR_same, put_of_rop _ _ _ h9, zx_bit _ _ _ (by omega)]
        have hmod : f.bo % (if rop f.ty = 8 then 64 else 32) = f.bo := by
          apply Nat.mod_eq_of_lt
          rcases h9 with h | h <;> simp [h] <;> omega
        rw [hmod]
        simp only [shOp, BitVec.getLsbD_shiftLeft]
        by_cases h : f.bo ≤ i
        · rw [cx4 _ (by omega), show decide (i - f.bo < f.w) = decide (i < f.bo + f.w) from decide_eq_decide.2 (by omega)]
          simp [h, hi, show i < 64 by omega, show ¬ i < f.bo by omega, Bool.and_comm]
        · simp [h, show i < f.bo by omega]
      · rename_i h
        refine ⟨s4, rfl, rfl, fun _ _ => rfl, fun i hi => ?_⟩
        have h : f.bo = 0 := by omega
        rw [cx4 i hi, h]
        simp [Bool.and_comm]
    obtain ⟨s5, r5, m5, o5, v5⟩ := hsh
    let s6 : St := (s5.setR .ax (put (rop f.ty) (s5.r .ax) (aluOp .or (X86.get sym s5 (rop f.ty) (.reg .ax)) (X86.get sym s5 (rop f.ty) (.reg .cx))))).noFlags
    have r6 : exec sym (.alu .or (rop f.ty) (.reg .cx) (.reg .ax)) s5 = some s6 := rfl
    have ax6 : ∀ i, i < 8 * f.ty.size → (s6.r .ax).getLsbD i =
        if f.bo ≤ i ∧ i < f.bo + f.w then (s.r .ax).getLsbD (i - f.bo) else memBit s.m a i := by
      intro i hi
      have e6 : s6.r .ax = zx (rop f.ty) _ := (setR_same s5 .ax _).trans (put_of_rop _ _ _ h9)
      rw [e6, zx_bit _ _ _ (by omega)]
      simp only [aluOp, X86.get, BitVec.getLsbD_or]
      rw [zx_bit _ _ _ (by omega), zx_bit _ _ _ (by omega), v5 i (by omega), o5 _ (by simp), ax4 i hi]
      simp only [show i < 8 * rop f.ty by omega, decide_true, Bool.true_and]
      by_cases c1 : f.bo ≤ i <;> by_cases c2 : i < f.bo + f.w <;> simp [c1, c2]
    have ptr6 : s6.r (popReg l) = a := by
      show (s5.setR .ax _).r (popReg l) = a
      rw [setR_other _ _ _ _ hnax, o5 _ hncx, o4 _ hnax hndx, o3 _ hnax, p2]
    let s7 : St := { s6 with m := wr s6.m a f.ty.size (X86.get sym s6 f.ty.size (.reg .ax)) }
    have r7 : exec sym (.mov f.ty.size (.reg .ax) (.mem (.off (popReg l) 0))) s6 = some s7 := by
      simp only [exec, put', ea, ptr6]
      rw [show BitVec.ofInt 64 0 = 0#64 from rfl, BitVec.add_zero]
    have hm6 : s6.m = s.m := m5.trans (m4.trans hm3)
    have hm7 : ∀ b j, j < 8 → (s7.m b).getLsbD j =
        if f.bo ≤ 8 * (b - a).toNat + j ∧ 8 * (b - a).toNat + j < f.bo + f.w then (s.r .ax).getLsbD (8 * (b - a).toNat + j - f.bo)
        else (s.m b).getLsbD j := by
      intro b j hj
      show (wr s6.m a f.ty.size _ b).getLsbD j = _
      rw [wr_bit _ _ _ _ _ _ hj, hm6]
      by_cases h : (b - a).toNat < f.ty.size
      · rw [if_pos h]
        simp only [X86.get]
        rw [zx_bit _ _ _ (by omega), ax6 _ (by omega), memBit_at _ _ _ _ hj, decide_eq_true (by omega), Bool.true_and]
      · rw [if_neg h, if_neg (by omega)]
    have o7 : ∀ q, q ≠ .ax → q ≠ .cx → q ≠ .dx → q ≠ popReg l → s7.r q = s.r q := by
      intro q q1 q2 q3 q4
      show (s5.setR .ax _).r q = _
      rw [setR_other _ _ _ _ q1, o5 _ q2, o4 _ q1 q3, o3 _ q1, o2 _ q4, o1 _ q2 q3, o0 _ q2]
    have pre : ∀ k, execs sym ([.mov (rop f.ty) (.reg .ax) (.reg .cx)] ++ immAnd (rop f.ty) .cx (mask f.w) ++ popIn stk true l ++
        [loadExt f.ty (.off (popReg l) 0) .ax] ++ immAnd (rop f.ty) .ax (keep f) ++ (if f.bo ≠ 0 then [.shft .shl (rop f.ty) (.imm f.bo) .cx] else []) ++
        [.alu .or (rop f.ty) (.reg .cx) (.reg .ax)] ++ [.mov f.ty.size (.reg .ax) (.mem (.off (popReg l) 0))] ++ k) s = execs sym k s7 := by
      intro k
      simp only [execs_append, execs, r0, Option.bind_some, r1, r2, r3, r4, r5, r6, r7]
    rw [pre]
    cases isVoid with
    | true =>
      refine ⟨s7, rfl, o7, hm7, ?_, ?_, ?_, ?_, ?_⟩ <;> intro h <;> cases h
    | false =>
      obtain ⟨s8, r8, m8, o8, u8, g8⟩ := extract_run sym f hw hu s7
      have hb : ∀ i, i < f.w → (s7.r .ax).getLsbD (f.bo + i) = (((s.r .ax).setWidth f.w)).getLsbD i := by
        intro i hi
        show (s6.r .ax).getLsbD _ = _
        rw [ax6 _ (by omega), if_pos (by omega), BitVec.getLsbD_setWidth, Nat.add_sub_cancel_left]
        simp [hi]
      have hu64 : f.ty.uns = true → s8.r .ax = ((s.r .ax).setWidth f.w).setWidth 64 := by
        intro hun
        rw [← BitVec.setWidth_eq (s8.r .ax)]
        refine word_zero _ _ 64 (Nat.le_refl _) fun i hi => ?_
        rw [u8 hun i hi]
        by_cases hi2 : i < f.w
        · rw [hb i hi2]
        · simp [hi2]
      refine ⟨s8, r8, fun q q1 q2 q3 q4 => (o8 q q1).trans (o7 q q1 q2 q3 q4), by rw [m8]; exact hm7, ?_, ?_, ?_, ?_, ?_⟩
      · exact fun _ h _ => hu64 h
      · exact fun _ h _ _ => hu64 h
      · intro _ h
        rw [hu64 h]
        exact BitVec.setWidth_setWidth_of_le _ (by omega)
      · intro _ hun
        refine word_sign _ _ 32 (by omega) hw fun i hi => ?_
        rw [g8 hun i (by omega), show f.bo + f.w - 1 = f.bo + (f.w - 1) by omega, hb (f.w - 1) (by omega)]
        split
        · rw [hb i (by assumption)]
        · rfl
      · intro _ hun hsz _
        rw [← BitVec.setWidth_eq (s8.r .ax)]
        refine word_sign _ _ 64 (Nat.le_refl _) hw fun i hi => ?_
        rw [g8 hun i (by rw [rop_8 _ hsz]; exact hi), show f.bo + f.w - 1 = f.bo + (f.w - 1) by omega, hb (f.w - 1) (by omega)]
        split
        · rw [hb i (by assumption)]
        · rfl

end
end Slimcc.BFL
