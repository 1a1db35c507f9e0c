import Verif.Lemmas.NodeVal
/-! The constant evaluator's operators compute the operators of C. -/
set_option autoImplicit false
namespace Slimcc
open Slimcc.Spec Slimcc.Spec.CTy Slimcc.Ty

theorem zero_range (t : ITy) (hw : t.wf = true) : InRange (cty t) 0 := by
  have key : ∀ t ∈ allTys, InRange (cty t) 0 := by decide
  exact key t (mem_allTys t hw)

theorem big_ne_bool (t : ITy) (h : 4 ≤ t.size) : t.kind ≠ .bool := by
  intro hb
  obtain ⟨k, u⟩ := t
  simp only at hb; subst hb
  exact absurd h (by simp only [ITy.size, IKind.size]; omega)

theorem nonneg_quot (a b : Int) (ha : 0 ≤ a) (hb : 0 ≤ b) : 0 ≤ a / b ∧ a / b ≤ a :=
  ⟨Int.ediv_nonneg ha hb, Int.ediv_le_self _ ha⟩

theorem signExt_and (t : ITy) (x y : BitVec 64) : signExt t (x &&& y) = signExt t x &&& signExt t y := by
  unfold signExt
  repeat' split
  all_goals simp only [BitVec.setWidth_and, BitVec.signExtend_and]

theorem signExt_or (t : ITy) (x y : BitVec 64) : signExt t (x ||| y) = signExt t x ||| signExt t y := by
  unfold signExt
  repeat' split
  all_goals simp only [BitVec.setWidth_or, BitVec.signExtend_or]

theorem signExt_xor (t : ITy) (x y : BitVec 64) : signExt t (x ^^^ y) = signExt t x ^^^ signExt t y := by
  unfold signExt
  repeat' split
  all_goals simp only [BitVec.setWidth_xor, BitVec.signExtend_xor]

/-- A bitwise operator that commutes with extension. -/
theorem bitwise_word (t : ITy) (f : BitVec 64 → BitVec 64 → BitVec 64) (hw : t.wf = true) (hb : t.kind ≠ .bool)
    (hf : ∀ x y, signExt t (f x y) = f (signExt t x) (signExt t y)) (a b : Int)
    (ha : InRange (cty t) a) (hb' : InRange (cty t) b) :
    f (BitVec.ofInt 64 a) (BitVec.ofInt 64 b) = BitVec.ofInt 64 (bitwise (cty t) f a b) := by
  unfold bitwise
  rw [← signExt_ofInt t _ hw hb, BitVec.ofInt_toInt, hf, signExt_id t a hw hb ha, signExt_id t b hw hb hb']

/-- What a computation of the evaluator must give for a result of the abstract machine. -/
def Meets (r : Res Int) (o : Outcome (BitVec 64)) : Prop :=
  match r with
  | .ok v => o = .ok (BitVec.ofInt 64 v)
  | .divZero => o = .error
  | .undef => True

theorem evalBin_meets (op : ArOp) (t : ITy) (a b : Int) (hw : t.wf = true) (hs : 4 ≤ t.size)
    (ha : InRange (cty t) a) (hb : InRange (cty t) b) :
    Meets (arith (cty t) op a b) (evalBin op t (BitVec.ofInt 64 a) (BitVec.ofInt 64 b)) := by
  have hk := big_ne_bool t hs
  have hz : BitVec.ofInt 64 b = 0 ↔ b = 0 := by
    constructor
    · intro h; exact ofInt_inj t b 0 hw hb (zero_range t hw) h
    · rintro rfl; rfl
  cases op with
  | add => simp only [arith, evalBin, Meets, ← signExt_ofInt t _ hw hk, BitVec.ofInt_add]
  | sub =>
    simp only [arith, evalBin, Meets, ← signExt_ofInt t _ hw hk]
    rw [Int.sub_eq_add_neg, BitVec.ofInt_add, BitVec.ofInt_neg, BitVec.sub_eq_add_neg]
  | mul => simp only [arith, evalBin, Meets, ← signExt_ofInt t _ hw hk, BitVec.ofInt_mul]
  | band => simp only [arith, evalBin, Meets, ← bitwise_word t (· &&& ·) hw hk (signExt_and t) a b ha hb]
  | bor => simp only [arith, evalBin, Meets, ← bitwise_word t (· ||| ·) hw hk (signExt_or t) a b ha hb]
  | bxor => simp only [arith, evalBin, Meets, ← bitwise_word t (· ^^^ ·) hw hk (signExt_xor t) a b ha hb]
  | div =>
    simp only [arith, evalBin, hz]
    by_cases h0 : b = 0
    · simp [h0, Meets]
    · rw [if_neg h0, if_neg h0]
      split
      · rename_i hr
        simp only [Meets]
        by_cases hu : t.uns = true
        · rw [if_pos hu]
          have h1 := range_uns t a hw hu ha
          have h2 := range_uns t b hw hu hb
          have h3 := nonneg_quot a b h1.1 h2.1
          congr 1
          apply BitVec.eq_of_toNat_eq
          have e1 := toNat_ofInt64 a
          have e2 := toNat_ofInt64 b
          have e3 := toNat_ofInt64 (a.tdiv b)
          rw [Int.tdiv_eq_ediv_of_nonneg h1.1] at e3 ⊢
          rw [BitVec.udiv_eq, BitVec.toNat_udiv]
          rw [Int.emod_eq_of_lt h1.1 h1.2] at e1
          rw [Int.emod_eq_of_lt h2.1 h2.2] at e2
          rw [Int.emod_eq_of_lt h3.1 (by omega)] at e3
          have : (((BitVec.ofInt 64 a).toNat / (BitVec.ofInt 64 b).toNat : Nat) : Int) = (BitVec.ofInt 64 (a / b)).toNat := by
            rw [Int.natCast_ediv, e1, e2, e3]
          omega
        · rw [if_neg hu]
          have hu' : t.uns = false := by simpa using hu
          have h1 := range_sgn t a hw hu' ha
          have h2 := range_sgn t b hw hu' hb
          have h3 : -9223372036854775808 ≤ a.tdiv b ∧ a.tdiv b < 9223372036854775808 := range_sgn t _ hw hu' hr
          have e1 := toInt_ofInt64 a
          have e2 := toInt_ofInt64 b
          rw [show (a + 9223372036854775808) % 18446744073709551616 - 9223372036854775808 = a by omega] at e1
          rw [show (b + 9223372036854775808) % 18446744073709551616 - 9223372036854775808 = b by omega] at e2
          have hq : (BitVec.ofInt 64 a).sdiv (BitVec.ofInt 64 b) = BitVec.ofInt 64 (a.tdiv b) := by
            apply BitVec.eq_of_toInt_eq
            rw [BitVec.toInt_sdiv, e1, e2, toInt_ofInt64]
            simp only [Int.bmod]; omega
          split
          · rename_i hc
            exfalso
            have ha' : a = -9223372036854775808 := by rw [← e1, hc.1]; decide
            have hb' : b = -1 := by rw [← e2, hc.2]; decide
            subst ha' hb'
            exact absurd h3.2 (by decide)
          · rw [hq]
      · trivial
  | mod =>
    simp only [arith, evalBin, hz]
    by_cases h0 : b = 0
    · simp [h0, Meets]
    · rw [if_neg h0, if_neg h0]
      split
      · rename_i hr
        simp only [Meets]
        by_cases hu : t.uns = true
        · rw [if_pos hu]
          have h1 := range_uns t a hw hu ha
          have h2 := range_uns t b hw hu hb
          congr 1
          apply BitVec.eq_of_toNat_eq
          have e1 := toNat_ofInt64 a
          have e2 := toNat_ofInt64 b
          have e3 := toNat_ofInt64 (a.tmod b)
          rw [Int.tmod_eq_emod_of_nonneg h1.1] at e3 ⊢
          have h4 := Int.emod_nonneg a h0
          have h5 := Int.emod_lt_of_pos a (by omega : 0 < b)
          rw [BitVec.umod_eq, BitVec.toNat_umod]
          rw [Int.emod_eq_of_lt h1.1 h1.2] at e1
          rw [Int.emod_eq_of_lt h2.1 h2.2] at e2
          rw [Int.emod_eq_of_lt h4 (by omega)] at e3
          have : (((BitVec.ofInt 64 a).toNat % (BitVec.ofInt 64 b).toNat : Nat) : Int) = (BitVec.ofInt 64 (a % b)).toNat := by
            rw [Int.natCast_emod, e1, e2, e3]
          omega
        · rw [if_neg hu]
          have hu' : t.uns = false := by simpa using hu
          have h1 := range_sgn t a hw hu' ha
          have h2 := range_sgn t b hw hu' hb
          have h3 : -9223372036854775808 ≤ a.tdiv b ∧ a.tdiv b < 9223372036854775808 := range_sgn t _ hw hu' hr
          have e1 := toInt_ofInt64 a
          have e2 := toInt_ofInt64 b
          rw [show (a + 9223372036854775808) % 18446744073709551616 - 9223372036854775808 = a by omega] at e1
          rw [show (b + 9223372036854775808) % 18446744073709551616 - 9223372036854775808 = b by omega] at e2
          have hq : (BitVec.ofInt 64 a).srem (BitVec.ofInt 64 b) = BitVec.ofInt 64 (a.tmod b) := by
            apply BitVec.eq_of_toInt_eq
            rw [BitVec.toInt_srem, e1, e2]
            rw [← e1, ← e2, ← BitVec.toInt_srem, BitVec.ofInt_toInt]
          split
          · rename_i hc
            exfalso
            have ha' : a = -9223372036854775808 := by rw [← e1, hc.1]; decide
            have hb' : b = -1 := by rw [← e2, hc.2]; decide
            subst ha' hb'
            exact absurd h3.2 (by decide)
          · rw [hq]
      · trivial

theorem tdiv_abs_le (a b : Int) : (a.tdiv b).natAbs ≤ a.natAbs := by
  rw [Int.natAbs_tdiv]; exact Nat.div_le_self _ _

theorem tmod_bounds (a b : Int) (lo hi : Int) (hlo : lo ≤ 0) (hhi : 0 ≤ hi) (ha : lo ≤ a ∧ a ≤ hi) :
    lo ≤ a.tmod b ∧ a.tmod b ≤ hi := by
  rcases Int.le_total 0 a with h | h
  · have h1 := Int.tmod_nonneg b h
    have h2 : a.tmod b ≤ a := by
      rw [Int.tmod_eq_emod_of_nonneg h]
      have := Int.emod_nonneg
      by_cases hb : b = 0
      · subst hb; simp
      · have h3 := Int.emod_add_mul_ediv a b
        rcases Int.le_total 0 b with hb' | hb'
        · have := Int.mul_nonneg hb' (Int.ediv_nonneg h hb'); omega
        · have hq : a / b ≤ 0 := Int.ediv_nonpos_of_nonneg_of_nonpos h hb'
          have := Int.mul_nonneg_of_nonpos_of_nonpos hb' hq; omega
    omega
  · have h1 := Int.tmod_nonneg b (a := -a) (by omega)
    rw [Int.neg_tmod] at h1
    have h2 : (-a).tmod b ≤ -a := by
      rw [Int.tmod_eq_emod_of_nonneg (by omega)]
      by_cases hb : b = 0
      · subst hb; simp
      · have h3 := Int.emod_add_mul_ediv (-a) b
        rcases Int.le_total 0 b with hb' | hb'
        · have := Int.mul_nonneg hb' (Int.ediv_nonneg (by omega : 0 ≤ -a) hb'); omega
        · have hq : (-a) / b ≤ 0 := Int.ediv_nonpos_of_nonneg_of_nonpos (by omega) hb'
          have := Int.mul_nonneg_of_nonpos_of_nonpos hb' hq; omega
    rw [Int.neg_tmod] at h2
    omega

theorem min_max_sign (t : CTy) : t.minVal ≤ 0 ∧ 0 ≤ t.maxVal := by cases t <;> decide

/-- Results of arithmetic are values of the type. -/
theorem arith_range (t : CTy) (op : ArOp) (a b v : Int) (ha : InRange t a) (h : arith t op a b = .ok v) : InRange t v := by
  cases op <;> simp only [arith] at h
  all_goals try (injection h with h; subst h; exact conv_range _ _)
  · split at h
    · cases h
    · split at h
      · rename_i hr; injection h with h; subst h; exact hr
      · cases h
  · split at h
    · cases h
    · split at h
      · rename_i hr; injection h with h; subst h
        exact tmod_bounds a b _ _ (min_max_sign t).1 (min_max_sign t).2 ha
      · cases h

theorem floor_bounds (a lo hi : Int) (n : Nat) (hlo : lo ≤ 0) (hhi : 0 ≤ hi) (ha : lo ≤ a ∧ a ≤ hi) :
    lo ≤ a / 2 ^ n ∧ a / 2 ^ n ≤ hi := by
  have hp : (0 : Int) < 2 ^ n := Int.pow_pos (by decide)
  constructor
  · apply Int.le_ediv_of_mul_le hp
    have : lo * 2 ^ n ≤ lo * 1 := Int.mul_le_mul_of_nonpos_left hlo (by omega)
    omega
  · rcases Int.le_total 0 a with h | h
    · have := Int.ediv_le_self (2 ^ n) h; omega
    · have : a / 2 ^ n ≤ 0 := by
        have := Int.ediv_le_ediv hp h
        simpa using this
      omega

theorem shift_range (t : CTy) (op : ShOp) (a c v : Int) (ha : InRange t a) (h : shift t op a c = .ok v) : InRange t v := by
  cases op <;> simp only [shift] at h <;> split at h <;> first | cases h | (injection h with h; subst h)
  · exact conv_range _ _
  · exact floor_bounds a _ _ _ (min_max_sign t).1 (min_max_sign t).2 ha

/-- The shift a shift node stands for (a logical shift of a negative value, or an arithmetic one
of an unsigned type, is never built and has no meaning here). -/
def nshift (t : ITy) : ShKind → Int → Int → Res Int
  | .shl, a, c => shift (cty t) .shl a c
  | .shr, a, c => if a < 0 then .undef else shift (cty t) .shr a c
  | .sar, a, c => if t.uns then .undef else shift (cty t) .shr a c

theorem nshift_range (t : ITy) (k : ShKind) (a c v : Int) (ha : InRange (cty t) a) (h : nshift t k a c = .ok v) :
    InRange (cty t) v := by
  cases k <;> simp only [nshift] at h
  · exact shift_range _ _ _ _ _ ha h
  · split at h
    · cases h
    · exact shift_range _ _ _ _ _ ha h
  · split at h
    · cases h
    · exact shift_range _ _ _ _ _ ha h

theorem shift_no_div (t : CTy) (op : ShOp) (a c : Int) : shift t op a c ≠ .divZero := by
  cases op <;> simp only [shift] <;> split <;> simp

theorem nshift_no_div (t : ITy) (k : ShKind) (a c : Int) : nshift t k a c ≠ .divZero := by
  cases k <;> simp only [nshift]
  · exact shift_no_div _ _ _ _
  · split
    · simp
    · exact shift_no_div _ _ _ _
  · split
    · simp
    · exact shift_no_div _ _ _ _

/-- The sizes and kinds of operand types. -/
theorem big_cases (t : ITy) (hw : t.wf = true) (hs : 4 ≤ t.size) :
    (t.size = 4 ∧ (cty t).width = 32) ∨ (t.size = 8 ∧ (cty t).width = 64) := by
  have key : ∀ t ∈ allTys, 4 ≤ t.size → (t.size = 4 ∧ (cty t).width = 32) ∨ (t.size = 8 ∧ (cty t).width = 64) := by decide
  exact key t (mem_allTys t hw) hs

theorem count_nat (tc : ITy) (c : Int) (hwc : tc.wf = true) (hc : InRange (cty tc) c) (h0 : 0 ≤ c) (h : c < 64) :
    (BitVec.ofInt 64 c).toNat = c.toNat := by
  have := toNat_ofInt64 c
  omega

theorem range4 (t : ITy) (a : Int) (hw : t.wf = true) (hs : t.size = 4) (h : InRange (cty t) a) :
    -2147483648 ≤ a ∧ a < 4294967296 ∧ (t.uns = true → 0 ≤ a) ∧ (t.uns = false → a < 2147483648) := by
  have hm := mem_allTys t hw
  simp only [allTys, List.mem_cons, List.not_mem_nil, or_false] at hm
  rcases hm with rfl | rfl | rfl | rfl | rfl | rfl | rfl | rfl | rfl | rfl | rfl | rfl <;>
    first
    | exact absurd hs (by decide)
    | (simp only [cty, ty_int] at h; rw [range_int] at h; refine ⟨by omega, by omega, fun x => absurd x (by decide), fun _ => by omega⟩)
    | (simp only [cty, ty_uint] at h; rw [range_uint] at h; refine ⟨by omega, by omega, fun _ => by omega, fun x => absurd x (by decide)⟩)

theorem shr_nat (a : Int) (n : Nat) (h : 0 ≤ a) : ((a.toNat >>> n : Nat) : Int) = a / 2 ^ n := by
  rw [Nat.shiftRight_eq_div_pow, Int.natCast_ediv, Int.toNat_of_nonneg h]
  simp

theorem evalShift_meets (hst : HostShift) (k : ShKind) (t : ITy) (a c : Int) (hw : t.wf = true) (hs : 4 ≤ t.size)
    (ha : InRange (cty t) a) (tc : ITy) (hwc : tc.wf = true) (hc : InRange (cty tc) c) :
    Meets (nshift t k a c) (.ok (evalShift hst k t (BitVec.ofInt 64 a) (BitVec.ofInt 64 c))) := by
  have hk := big_ne_bool t hs
  have hwid : (cty t).width ≤ 64 := by rcases big_cases t hw hs with h | h <;> omega
  cases k with
  | shl =>
    simp only [nshift, shift]
    split
    · rename_i h
      have h64 : c < 64 := by have := h.2; omega
      simp only [Meets, evalShift]
      rw [count_nat tc c hwc hc h.1 h64, if_pos (by omega), ← signExt_ofInt t _ hw hk]
      congr 2
      rw [BitVec.ofInt_mul, BitVec.shiftLeft_eq_mul_twoPow]
      congr 1
      rw [show ((2 : Int) ^ c.toNat) = ((2 ^ c.toNat : Nat) : Int) by simp, BitVec.ofInt_natCast]
      apply BitVec.eq_of_toNat_eq; rw [BitVec.toNat_twoPow, BitVec.toNat_ofNat]
    · trivial
  | shr =>
    simp only [nshift]
    split
    · trivial
    · rename_i hneg
      simp only [shift]
      split
      · rename_i h
        have h64 : c < 64 := by have := h.2; omega
        simp only [Meets, evalShift]
        rw [count_nat tc c hwc hc h.1 h64]
        congr 1
        have hq := nonneg_quot a (2 ^ c.toNat) (by omega) (Int.le_of_lt (Int.pow_pos (by decide)))
        have e0 := toNat_ofInt64 a
        have e1 := toNat_ofInt64 (a / 2 ^ c.toNat)
        rcases big_cases t hw hs with hh | hh
        · rw [if_pos hh.1, if_pos (by have := h.2; rw [hh.2] at this; omega)]
          apply BitVec.eq_of_toNat_eq
          have hr := range4 t a hw hh.1 ha
          rw [BitVec.toNat_setWidth, BitVec.toNat_ushiftRight, BitVec.toNat_setWidth]
          have ea : (BitVec.ofInt 64 a).toNat % 2 ^ 32 = a.toNat := by omega
          rw [ea]
          have := shr_nat a c.toNat (by omega)
          have : a.toNat >>> c.toNat ≤ a.toNat := Nat.shiftRight_le _ _
          omega
        · rw [if_neg (by omega), if_pos (by omega)]
          apply BitVec.eq_of_toNat_eq
          rw [BitVec.toNat_ushiftRight]
          have hlt : a < 18446744073709551616 := by
            by_cases hu : t.uns = true
            · exact (range_uns t a hw hu ha).2
            · have := (range_sgn t a hw (by simpa using hu) ha).2; omega
          have ea : (BitVec.ofInt 64 a).toNat = a.toNat := by omega
          rw [ea]
          have := shr_nat a c.toNat (by omega)
          omega
      · trivial
  | sar =>
    simp only [nshift]
    split
    · trivial
    · rename_i hu
      have hu' : t.uns = false := by simpa using hu
      simp only [shift]
      split
      · rename_i h
        have h64 : c < 64 := by have := h.2; omega
        simp only [Meets, evalShift]
        rw [count_nat tc c hwc hc h.1 h64]
        congr 1
        have ha64 := range_sgn t a hw hu' ha
        have hq := floor_bounds a (-9223372036854775808) 9223372036854775807 c.toNat (by decide) (by decide) (by omega)
        rcases big_cases t hw hs with hh | hh
        · rw [if_pos hh.1, if_pos (by have := h.2; rw [hh.2] at this; omega)]
          apply BitVec.eq_of_toInt_eq
          have hr := range4 t a hw hh.1 ha
          have hr2 := hr.2.2.2 hu'
          rw [BitVec.toInt_signExtend_of_le (by decide), BitVec.toInt_sshiftRight, BitVec.toInt_setWidth, toInt_ofInt64]
          have e0 := toNat_ofInt64 a
          have ea : ((BitVec.ofInt 64 a).toNat : Int).bmod (2 ^ 32) = a := by simp only [Int.bmod]; omega
          rw [ea, Int.shiftRight_eq_div_pow]
          simp only [Int.natCast_pow, Int.cast_ofNat_Int] at *
          omega
        · rw [if_neg (by omega), if_pos (by omega)]
          apply BitVec.eq_of_toInt_eq
          rw [BitVec.toInt_sshiftRight, toInt_ofInt64, toInt_ofInt64]
          rw [show (a + 9223372036854775808) % 18446744073709551616 - 9223372036854775808 = a by omega]
          rw [Int.shiftRight_eq_div_pow]
          simp only [Int.natCast_pow, Int.cast_ofNat_Int] at *
          omega
      · trivial

theorem compare_range (op : CmpOp) (a b : Int) : cmpVal op a b = 0 ∨ cmpVal op a b = 1 := by
  cases op <;> simp only [cmpVal, truth] <;> split <;> simp

theorem truth_cases (p : Prop) [Decidable p] : truth p = 0 ∨ truth p = 1 := by
  unfold truth; split <;> simp

theorem evalCmp_eq (op : CmpOp) (t : ITy) (a b : Int) (hw : t.wf = true) (ha : InRange (cty t) a) (hb : InRange (cty t) b) :
    b64 (evalCmp op t (BitVec.ofInt 64 a) (BitVec.ofInt 64 b)) = BitVec.ofInt 64 (cmpVal op a b) := by
  have heq : BitVec.ofInt 64 a = BitVec.ofInt 64 b ↔ a = b := ⟨ofInt_inj t a b hw ha hb, fun h => by rw [h]⟩
  have key : ∀ (q : Bool) (p : Prop) [Decidable p], (q = true ↔ p) → b64 q = BitVec.ofInt 64 (truth p) := by
    intro q p _ h
    have : q = decide p := by rw [Bool.eq_iff_iff, h]; simp
    rw [this, b64_truth]
  cases op <;> simp only [evalCmp, cmpVal] <;> apply key
  · simp [heq]
  · simp [heq]
  all_goals
    by_cases hu : t.uns = true
    · rw [if_pos hu]
      have h1 := range_uns t a hw hu ha
      have h2 := range_uns t b hw hu hb
      have e1 := toNat_ofInt64 a
      have e2 := toNat_ofInt64 b
      simp only [BitVec.ult, BitVec.ule, decide_eq_true_eq]; omega
    · rw [if_neg hu]
      have h1 := range_sgn t a hw (by simpa using hu) ha
      have h2 := range_sgn t b hw (by simpa using hu) hb
      have e1 := toInt_ofInt64 a
      have e2 := toInt_ofInt64 b
      simp only [BitVec.slt, BitVec.sle, decide_eq_true_eq]; omega

end Slimcc
