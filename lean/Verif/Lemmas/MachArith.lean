import Verif.Lemmas.Word
/-! The arithmetic of the machine on words that hold values of C types. -/
set_option autoImplicit false
namespace Slimcc
open Slimcc.Spec Slimcc.Spec.CTy Slimcc.Ty Slimcc.X86 Slimcc.Gen

theorem cty_ne_bool (t : ITy) (h : 4 ≤ t.size) : cty t ≠ .bool := fun e => big_ne_bool t h ((cty_bool t).1 e)

theorem width_size (t : ITy) (h : 4 ≤ t.size) : (cty t).width = 8 * t.size := cty_width t (big_ne_bool t h)

/-- An unsigned operand. -/
theorem zx_val (t : ITy) (v : Int) (x : Word) (hw : t.wf = true) (h : InRange (cty t) v) (hx : Low t.size v x) (hu : t.uns = true) :
    ((zx t.size x).toNat : Int) = v := by
  have := ext_low t v x hw h hx
  rw [if_pos hu] at this
  rw [this, toNat_ofInt64]
  have := range_uns t v hw hu h; omega

/-- A signed operand. -/
theorem sx_val (t : ITy) (v : Int) (x : Word) (hw : t.wf = true) (h : InRange (cty t) v) (hx : Low t.size v x) (hu : t.uns = false) :
    (sx t.size x).toInt = v := by
  have := ext_low t v x hw h hx
  rw [if_neg (by simp [hu])] at this
  rw [this, toInt_ofInt64]
  have := range_sgn t v hw hu h; omega

theorem low_add {sz : Nat} {a b : Int} {x y : Word} (h8 : sz ≤ 8) (ha : Low sz a x) (hb : Low sz b y) : Low sz (a + b) (x + y) := by
  unfold Low at *; rw [BitVec.setWidth_add _ _ (by omega), ha, hb, ← BitVec.ofInt_add]
theorem low_neg {sz : Nat} {a : Int} {x : Word} (h8 : sz ≤ 8) (ha : Low sz a x) : Low sz (-a) (-x) := by
  unfold Low at *; rw [BitVec.setWidth_neg_of_le (by omega), ha, ← BitVec.ofInt_neg]
theorem low_sub {sz : Nat} {a b : Int} {x y : Word} (h8 : sz ≤ 8) (ha : Low sz a x) (hb : Low sz b y) : Low sz (a - b) (x - y) := by
  rw [BitVec.sub_eq_add_neg, Int.sub_eq_add_neg]; exact low_add h8 ha (low_neg h8 hb)
theorem low_mul {sz : Nat} {a b : Int} {x y : Word} (h8 : sz ≤ 8) (ha : Low sz a x) (hb : Low sz b y) : Low sz (a * b) (x * y) := by
  unfold Low at *; rw [BitVec.setWidth_mul _ _ (by omega), ha, hb, ← BitVec.ofInt_mul]
theorem low_not {sz : Nat} {a : Int} {x : Word} (h8 : sz ≤ 8) (ha : Low sz a x) : Low sz (-a - 1) (~~~x) := by
  rw [show ~~~x = -x - 1 by rw [BitVec.not_eq_neg_add]; rfl]
  exact low_sub h8 (low_neg h8 ha) (by simpa using Low.of_eq sz 1 h8)

theorem ofInt_toInt_sw (w : Nat) (z : Word) (h : w ≤ 64) : BitVec.ofInt w z.toInt = z.setWidth w := by
  rw [← sw_ofInt w _ h, BitVec.ofInt_toInt]

/-- `and`, `or`, `xor` for any operator that commutes with truncation. -/
theorem low_bitwise {t : ITy} {a b : Int} {x y : Word} (f : Word → Word → Word) (hs : 4 ≤ t.size)
    (hf : ∀ x y x' y' : Word, x.setWidth (8 * t.size) = x'.setWidth (8 * t.size) → y.setWidth (8 * t.size) = y'.setWidth (8 * t.size) →
      (f x y).setWidth (8 * t.size) = (f x' y').setWidth (8 * t.size))
    (ha : Low t.size a x) (hb : Low t.size b y) : Low t.size (bitwise (cty t) f a b) (f x y) := by
  have h8 := (size_le t).1
  unfold bitwise
  apply Low.conv _ _ (cty_ne_bool t hs) (by rw [width_size t hs]; exact Nat.le_refl _)
  unfold Low at *
  rw [ofInt_toInt_sw _ _ (by omega)]
  apply hf
  · rw [ha, sw_ofInt _ _ (by omega)]
  · rw [hb, sw_ofInt _ _ (by omega)]

/-- The two-operand instructions compute the operators. -/
theorem alu_arith (k : ArOp) (op : Alu) (t : ITy) (a b v : Int) (x y : Word) (hs : 4 ≤ t.size)
    (hk : aluOf k = some op) (h : arith (cty t) k a b = .ok v) (ha : Low t.size a x) (hb : Low t.size b y) :
    Low t.size v (aluOp op x y) := by
  have h8 := (size_le t).1
  have hb' := cty_ne_bool t hs
  have hw : 8 * t.size ≤ (cty t).width := by rw [width_size t hs]; exact Nat.le_refl _
  cases k <;> simp only [aluOf] at hk <;> first | (injection hk with hk; subst hk) | cases hk
  all_goals
    simp only [arith] at h
    injection h with h
    subst h
    simp only [aluOp]
  · exact (low_add h8 ha hb).conv _ hb' hw
  · exact (low_sub h8 ha hb).conv _ hb' hw
  · exact (low_mul h8 ha hb).conv _ hb' hw
  · exact low_bitwise (· &&& ·) hs (fun x y x' y' h1 h2 => by simp only [BitVec.setWidth_and, h1, h2]) ha hb
  · exact low_bitwise (· ||| ·) hs (fun x y x' y' h1 h2 => by simp only [BitVec.setWidth_or, h1, h2]) ha hb
  · exact low_bitwise (· ^^^ ·) hs (fun x y x' y' h1 h2 => by simp only [BitVec.setWidth_xor, h1, h2]) ha hb

/-- Low halves of equal words. -/
theorem Low.of_sw {sz : Nat} {v : Int} {x y : Word} (h : Low sz v y) (e : x.setWidth (8 * sz) = y.setWidth (8 * sz)) : Low sz v x := by
  unfold Low at *; rw [e, h]

theorem sshr_sx (x : Word) (n : Nat) : ((sx 4 x).sshiftRight n).setWidth 32 = (x.setWidth 32).sshiftRight n := by
  ext i hi
  simp only [BitVec.getElem_setWidth, BitVec.getLsbD_sshiftRight, BitVec.getElem_sshiftRight]
  simp only [sx, BitVec.getLsbD_signExtend]
  have hm : ((BitVec.setWidth (8 * 4) x).signExtend 64).msb = (x.setWidth 32).msb := by
    rw [BitVec.msb_eq_getLsbD_last, BitVec.getLsbD_signExtend]; simp
  have hmm : (BitVec.setWidth (8 * 4) x).msb = (x.setWidth 32).msb := rfl
  by_cases h1 : n + i < 32
  · simp [show ¬ 64 ≤ i by omega, show n + i < 64 by omega, h1]
  · by_cases h2 : n + i < 64
    · simp [show ¬ 64 ≤ i by omega, h2, h1, hmm]
    · rw [if_neg h2]
      simp [show ¬ 64 ≤ i by omega, h2, h1, hm]

/-- Shifts by a count in range. -/
theorem sh_low (k : ShKind) (t tc : ITy) (a c v : Int) (x : Word) (hw : t.wf = true) (hs : 4 ≤ t.size) (ha : InRange (cty t) a)
    (hwc : tc.wf = true) (hc : InRange (cty tc) c) (h : nshift t k a c = .ok v) (hx : Low t.size a x) :
    0 ≤ c ∧ c < 8 * t.size ∧ Low t.size v (shOp k t.size x c.toNat) := by
  have hb := cty_ne_bool t hs
  have hr : 0 ≤ c ∧ c < 8 * t.size := by
    have : 0 ≤ c ∧ c < (cty t).width := by
      have hsh : ∀ op, shift (cty t) op a c = .ok v → 0 ≤ c ∧ c < (cty t).width := by
        intro op h
        cases op <;> simp only [shift] at h <;> split at h <;> first | assumption | cases h
      cases k <;> simp only [nshift] at h
      · exact hsh _ h
      · split at h
        · cases h
        · exact hsh _ h
      · split at h
        · cases h
        · exact hsh _ h
    rw [width_size t hs] at this
    omega
  have h8 := (size_le t).1
  refine ⟨hr.1, hr.2, ?_⟩
  have hm := evalShift_meets (fun _ _ x _ => x) k t a c hw hs ha tc hwc hc
  rw [h] at hm
  simp only [Meets, Outcome.ok.injEq] at hm
  have hcn : (BitVec.ofInt 64 c).toNat = c.toNat := count_nat tc c hwc hc hr.1 (by omega)
  have hlt : c.toNat < 8 * t.size := by omega
  have hv : ∀ y : Word, y = BitVec.ofInt 64 v → Low t.size v y := fun y e => by rw [e]; exact Low.of_eq _ _ h8
  unfold Low at hx
  cases k with
  | shl =>
    simp only [evalShift, hcn, show c.toNat < 64 by omega, if_true] at hm
    refine (hv _ hm).of_sw ?_
    simp only [shOp]
    rw [signExt_eq]
    rw [show ((if t.uns = true then zx t.size (BitVec.ofInt 64 a <<< c.toNat) else sx t.size (BitVec.ofInt 64 a <<< c.toNat)).setWidth (8 * t.size)) =
      (BitVec.ofInt 64 a <<< c.toNat).setWidth (8 * t.size) by
        split
        · exact sw_zx _ _ _ (Nat.le_refl _)
        · exact sw_sx _ _ _ (Nat.le_refl _) (by omega)]
    rw [BitVec.setWidth_shiftLeft_of_le (by omega), BitVec.setWidth_shiftLeft_of_le (by omega), hx, sw_ofInt _ _ (by omega)]
  | shr =>
    simp only [evalShift, hcn] at hm
    rcases big_cases t hw hs with ⟨e, _⟩ | ⟨e, _⟩
    · rw [if_pos e, if_pos (by omega)] at hm
      refine (hv _ hm).of_sw ?_
      simp only [shOp]
      rw [e] at hx ⊢
      congr 1
      unfold zx
      rw [hx, sw_ofInt _ _ (by omega)]
      rw [BitVec.setWidth_ushiftRight (by omega)]
    · rw [if_neg (by omega), if_pos (by omega)] at hm
      refine (hv _ hm).of_sw ?_
      simp only [shOp]
      rw [e] at hx ⊢
      have : x = BitVec.ofInt 64 a := by simpa using hx
      rw [zx8, this]
  | sar =>
    simp only [evalShift, hcn] at hm
    rcases big_cases t hw hs with ⟨e, _⟩ | ⟨e, _⟩
    · rw [if_pos e, if_pos (by omega)] at hm
      refine (hv _ hm).of_sw ?_
      simp only [shOp]
      rw [e] at hx ⊢
      show BitVec.setWidth 32 _ = BitVec.setWidth 32 _
      rw [sshr_sx]
      have hx' : x.setWidth 32 = BitVec.ofInt 32 a := hx
      rw [hx', sw_ofInt _ _ (by omega)]
      ext i hi
      rw [BitVec.getElem_setWidth, BitVec.getLsbD_signExtend]
      simp only [show i < 64 by omega, hi, decide_true, Bool.true_and, if_true]
      rw [BitVec.getLsbD_eq_getElem hi]
    · rw [if_neg (by omega), if_pos (by omega)] at hm
      refine (hv _ hm).of_sw ?_
      simp only [shOp]
      rw [e] at hx ⊢
      have : x = BitVec.ofInt 64 a := by simpa using hx
      rw [sx8, this]

/-- Comparison of two operands of a type. -/
theorem cmp_flags (op : CmpOp) (t : ITy) (a b : Int) (x y : Word) (hw : t.wf = true) (ha : InRange (cty t) a)
    (hb : InRange (cty t) b) (hx : Low t.size a x) (hy : Low t.size b y) :
    ((cmpCC op t.uns).holds (cmpFlags t.size x y) = true) ↔ cmpVal op a b = 1 := by
  have h8 := (size_le t).1
  have ex := ext_low t a x hw ha hx
  have ey := ext_low t b y hw hb hy
  have heq : zx t.size x = zx t.size y ↔ a = b := by
    constructor
    · intro e
      apply ofInt_inj t a b hw ha hb
      rw [← ex, ← ey]
      split
      · exact e
      · rw [← sx_zx, e, sx_zx]
    · rintro rfl
      rw [hx.zx_eq h8, hy.zx_eq h8]
  by_cases hu : t.uns = true
  · have zxa := zx_val t a x hw ha hx hu
    have zyb := zx_val t b y hw hb hy hu
    rw [hu]
    have hlt : (zx t.size x).ult (zx t.size y) = true ↔ a < b := by
      simp only [BitVec.ult, decide_eq_true_eq]; omega
    cases op <;> simp only [cmpCC, if_true, CC.holds, cmpFlags, cmpVal, truth, Bool.not_eq_true', Bool.or_eq_true,
      Bool.or_eq_false_iff, beq_eq_false_iff_ne, beq_iff_eq, ne_eq, Bool.eq_false_iff, heq, hlt]
    all_goals (split <;> simp <;> omega)
  · have hu' : t.uns = false := by simpa using hu
    have zxa := sx_val t a x hw ha hx hu'
    have zyb := sx_val t b y hw hb hy hu'
    rw [hu']
    have hlt : (sx t.size x).slt (sx t.size y) = true ↔ a < b := by
      simp only [BitVec.slt, decide_eq_true_eq]; omega
    cases op <;> simp only [cmpCC, Bool.false_eq_true, if_false, CC.holds, cmpFlags, cmpVal, truth, Bool.not_eq_true', Bool.or_eq_true,
      Bool.or_eq_false_iff, beq_eq_false_iff_ne, beq_iff_eq, ne_eq, Bool.eq_false_iff, heq, hlt]
    all_goals (split <;> simp <;> omega)

/-- `test r, r` compares with zero. -/
theorem test_cmp (sz : Nat) (x : Word) : testFlags sz x = cmpFlags sz x 0 := by
  have h0 : zx sz (0 : Word) = 0 := by unfold zx; simp
  have h1 : sx sz (0 : Word) = 0 := by
    unfold sx
    apply BitVec.eq_of_getLsbD_eq
    intro i hi
    simp only [BitVec.getLsbD_signExtend]
    simp
  unfold testFlags cmpFlags
  rw [h0, h1]
  simp [BitVec.ult]

/-- The sign word that `cdq` and `cqo` make. -/
theorem sign_word (sz : Nat) (h : sz = 4 ∨ sz = 8) (x : Word) :
    (sx sz (put sz 0 ((sx sz x).sshiftRight 63))).toInt * 2 ^ (8 * sz) + ((zx sz x).toNat : Int) = (sx sz x).toInt := by
  have hput : ∀ y, sx sz (put sz 0 y) = sx sz y := fun y => by
    rw [put_of_rop sz _ _ h, sx_zx]
  rw [hput]
  have hsh : (sx sz x).sshiftRight 63 = if (sx sz x).toInt < 0 then -1 else 0 := by
    apply BitVec.eq_of_toInt_eq
    rw [BitVec.toInt_sshiftRight, Int.shiftRight_eq_div_pow]
    have := BitVec.toInt_lt (x := sx sz x)
    have := BitVec.le_toInt (x := sx sz x)
    split
    · show _ = (-1 : Int); omega
    · show _ = (0 : Int); omega
  rw [hsh]
  have hn : (sx sz x).toInt = (zx sz x).toNat ∨ (sx sz x).toInt = (zx sz x).toNat - 2 ^ (8 * sz) := by
    rw [zx_toNat _ _ (by omega)]
    unfold sx
    rw [BitVec.toInt_signExtend_of_le (by omega), BitVec.toInt_eq_toNat_cond, BitVec.toNat_setWidth]
    split
    · left; rfl
    · right; norm_cast
  have hlt : (zx sz x).toNat < 2 ^ (8 * sz) := by
    rw [zx_toNat _ _ (by omega)]; exact Nat.mod_lt _ (Nat.two_pow_pos _)
  have hlt' : ((zx sz x).toNat : Int) < 2 ^ (8 * sz) := by exact_mod_cast hlt
  have h1 : (sx sz (-1 : Word)).toInt = -1 := by rcases h with rfl | rfl <;> decide
  have h2 : (sx sz (0 : Word)).toInt = 0 := by rcases h with rfl | rfl <;> decide
  split
  · rw [h1]; omega
  · rw [h2]; omega

theorem put_hi (sz : Nat) (h : sz = 4 ∨ sz = 8) (o y : Word) : put sz o y = put sz 0 y := by
  rw [put_of_rop _ _ _ h, put_of_rop _ _ _ h]

/-- Signed division. -/
theorem idiv_ok (t : ITy) (a b : Int) (x y o : Word) (hw : t.wf = true) (hs : 4 ≤ t.size) (hu : t.uns = false)
    (ha : InRange (cty t) a) (hb : InRange (cty t) b) (hx : Low t.size a x) (hy : Low t.size b y) (hb0 : b ≠ 0)
    (hq : (cty t).minVal ≤ a.tdiv b ∧ a.tdiv b ≤ (cty t).maxVal) :
    divide true t.size (put t.size o ((sx t.size x).sshiftRight 63)) x y = some (BitVec.ofInt 64 (a.tdiv b), BitVec.ofInt 64 (a.tmod b)) := by
  have hsz : t.size = 4 ∨ t.size = 8 := by rcases big_cases t hw hs with h | h <;> simp [h.1]
  have hsw := sign_word t.size hsz x
  have ex := sx_val t a x hw ha hx hu
  have ey := sx_val t b y hw hb hy hu
  have hmm : (cty t).minVal = -2 ^ (8 * t.size - 1) ∧ (cty t).maxVal = 2 ^ (8 * t.size - 1) - 1 := by
    have key : ∀ t ∈ allTys, 4 ≤ t.size → t.uns = false → (cty t).minVal = -2 ^ (8 * t.size - 1) ∧ (cty t).maxVal = 2 ^ (8 * t.size - 1) - 1 := by decide
    exact key t (mem_allTys t hw) hs hu
  unfold divide
  rw [put_hi _ hsz]
  simp only [if_true, hsw, ex, ey, if_neg hb0]
  rw [if_pos ⟨by omega, by omega⟩]

/-- Unsigned division. -/
theorem div_ok (t : ITy) (a b : Int) (x y : Word) (hw : t.wf = true) (hs : 4 ≤ t.size) (hu : t.uns = true)
    (ha : InRange (cty t) a) (hb : InRange (cty t) b) (hx : Low t.size a x) (hy : Low t.size b y) (hb0 : b ≠ 0) :
    divide false t.size 0 x y = some (BitVec.ofInt 64 (a.tdiv b), BitVec.ofInt 64 (a.tmod b)) := by
  have ex := zx_val t a x hw ha hx hu
  have ey := zx_val t b y hw hb hy hu
  have hz : zx t.size (0 : Word) = 0 := by unfold zx; simp
  have hlt : (zx t.size x).toNat < 2 ^ (8 * t.size) := by
    rw [zx_toNat _ _ (size_le t).1]; exact Nat.mod_lt _ (Nat.two_pow_pos _)
  unfold divide
  simp only [Bool.false_eq_true, if_false, hz, show BitVec.toNat (0 : Word) = 0 from rfl, Nat.zero_mul, Nat.zero_add]
  rw [if_neg (by omega), if_pos (Nat.lt_of_le_of_lt (Nat.div_le_self _ _) hlt)]
  have hq : ((zx t.size x).toNat / (zx t.size y).toNat : Nat) = a.tdiv b := by
    rw [← ex, ← ey]; exact Int.ofNat_tdiv _ _
  have hr : ((zx t.size x).toNat % (zx t.size y).toNat : Nat) = a.tmod b := by
    rw [← ex, ← ey]; exact Int.ofNat_tmod _ _
  rw [← hq, ← hr, BitVec.ofInt_natCast, BitVec.ofInt_natCast]

end Slimcc
