import Verif.Lemmas.Float
/-! Sums, conversions and encodings. -/
set_option autoImplicit false
namespace Slimcc.FP
open Slimcc.Spec.FP

theorem val_fin (n : Bool) (m : Nat) (e : Int) : (Fl.fin n m e).val = some (sgn n * m * 2 ^ e) := rfl

theorem round_has (F : Fmt) (hF : Fmt.Ok F) (n : Bool) (m : Nat) (e : Int) : F.has (round F n m e) := by
  have h := round_rounded F hF n m e
  generalize round F n m e = r at h
  cases h with
  | over _ h e => subst e; trivial
  | near n m e v hv has => exact has

theorem round_neg (F : Fmt) (n : Bool) (m : Nat) (e : Int) : round F n m e = .inf n ∨ ∃ k f, round F n m e = .fin n k f := by
  unfold round
  by_cases h : m = 0
  · rw [if_pos h]; exact .inr ⟨_, _, rfl⟩
  · rw [if_neg h]
    dsimp only
    by_cases h2 : F.emax < (if (if 0 ≤ max ((m.log2 : Int) + 1 - F.p) (F.emin - e) then rne m (max ((m.log2 : Int) + 1 - F.p) (F.emin - e)).toNat else m * 2 ^ (-max ((m.log2 : Int) + 1 - F.p) (F.emin - e)).toNat) = 2 ^ F.p then (2 ^ (F.p - 1), e + max ((m.log2 : Int) + 1 - F.p) (F.emin - e) + 1) else ((if 0 ≤ max ((m.log2 : Int) + 1 - F.p) (F.emin - e) then rne m (max ((m.log2 : Int) + 1 - F.p) (F.emin - e)).toNat else m * 2 ^ (-max ((m.log2 : Int) + 1 - F.p) (F.emin - e)).toNat), e + max ((m.log2 : Int) + 1 - F.p) (F.emin - e))).2
    · rw [if_pos h2]; exact .inl rfl
    · rw [if_neg h2]; exact .inr ⟨_, _, rfl⟩

theorem natAbs_q (z : ℤ) : sgn (decide (z < 0)) * (z.natAbs : ℚ) = z := by
  rw [Nat.cast_natAbs]
  by_cases hz : z < 0
  · rw [abs_of_neg hz, decide_eq_true hz]; simp [sgn]
  · rw [abs_of_nonneg (by omega), decide_eq_false hz]; simp [sgn]

theorem ofInt_rounded (F : Fmt) (hF : Fmt.Ok F) (z : Int) : Rounded F z (ofInt F z) := by
  have h := round_rounded F hF (decide (z < 0)) z.natAbs 0
  have e : sgn (decide (z < 0)) * (z.natAbs : ℚ) * 2 ^ (0 : ℤ) = z := by
    rw [zpow_zero, mul_one]; exact natAbs_q z
  rw [e] at h
  exact h

/-- A number of the format is rounded to itself. -/
theorem Rounded.exact {F : Fmt} (hF : Fmt.Ok F) {x : ℚ} {r : Fl} (h : Rounded F x r) {y : Fl} (hy : F.has y) (hv : y.val = some x) :
    r.val = some x := by
  cases h with
  | over _ h e =>
    exfalso
    cases y with
    | nan => simp [Fl.val] at hv
    | inf _ => simp [Fl.val] at hv
    | fin n m e =>
      obtain ⟨h1, h2, h3, -⟩ := hy
      rw [val_fin, Option.some.injEq] at hv
      rw [← hv, mul_assoc, abs_mul, abs_sgn, one_mul, abs_of_nonneg (by positivity)] at h
      have h5 : (m : ℚ) + 1 ≤ 2 ^ F.p := by rw [← two_pow_nat]; exact_mod_cast h1
      have h6 := zpow_le h3
      have h7 : (2 : ℚ) ^ F.emax = 2 ^ (F.emax - 1) * 2 := by
        conv_lhs => rw [show F.emax = F.emax - 1 + 1 by ring]
        rw [zpow_split, zpow_one]
      have h8 := two_zpow_pos (F.emax - 1)
      have h9 : (m : ℚ) * 2 ^ e ≤ (2 ^ F.p - 1) * 2 ^ F.emax :=
        mul_le_mul (by linarith) h6 (two_zpow_pos e).le (by have := Nat.cast_nonneg (α := ℚ) m; linarith)
      rw [h7] at h9
      rw [pow_succ] at h
      nlinarith
  | near n m e v hv' has lt near =>
    have := near y x hy hv
    rw [sub_self, abs_zero] at this
    have h0 : x - v = 0 := abs_eq_zero.1 (le_antisymm this (abs_nonneg _))
    rw [hv', Option.some.injEq]
    linarith

/-- Numbers of few enough bits and with an exponent far from the ends belong to the format. -/
theorem representable (F : Fmt) (n : Bool) (m : Nat) (e : Int) (hF : Fmt.Ok F) (h1 : m < 2 ^ F.p) (h2 : F.emin ≤ e - (F.p - 1)) (h3 : e ≤ F.emax) :
    ∃ y, F.has y ∧ y.val = (Fl.fin n m e).val := by
  by_cases h0 : m = 0
  · refine ⟨.fin n 0 F.emin, ⟨by positivity, le_refl _, hF.2, .inr rfl⟩, ?_⟩
    rw [val_fin, val_fin, h0]; simp
  obtain ⟨l1, l2⟩ := log2_bounds h0
  have hl : m.log2 < F.p := (Nat.pow_lt_pow_iff_right (by omega)).1 (lt_of_le_of_lt l1 h1)
  have hp := hF.1
  refine ⟨.fin n (m * 2 ^ (F.p - 1 - m.log2)) (e - (F.p - 1 - m.log2 : Nat)), ⟨?_, by omega, by omega, .inl ?_⟩, ?_⟩
  · calc m * 2 ^ (F.p - 1 - m.log2) < 2 ^ (m.log2 + 1) * 2 ^ (F.p - 1 - m.log2) := Nat.mul_lt_mul_of_pos_right l2 (by positivity)
      _ = 2 ^ F.p := by rw [← pow_add]; congr 1; omega
  · calc 2 ^ (F.p - 1) = 2 ^ m.log2 * 2 ^ (F.p - 1 - m.log2) := by rw [← pow_add]; congr 1; omega
      _ ≤ _ := Nat.mul_le_mul_right _ l1
  · rw [val_fin, val_fin, Nat.cast_mul, two_pow_nat, Option.some.injEq, mul_assoc, mul_assoc, zpow_pow, ← mul_assoc]
    congr 2; ring

theorem add_rounded (F : Fmt) (hF : Fmt.Ok F) {x y : Fl} {v w : ℚ} (hx : x.val = some v) (hy : y.val = some w) :
    Rounded F (v + w) (add F x y) := by
  cases x with
  | nan => simp [Fl.val] at hx
  | inf _ => simp [Fl.val] at hx
  | fin a m e =>
  cases y with
  | nan => simp [Fl.val] at hy
  | inf _ => simp [Fl.val] at hy
  | fin b k f =>
  rw [val_fin, Option.some.injEq] at hx hy
  unfold add
  dsimp only
  generalize hd : min e f = d
  have he : (2 : ℚ) ^ e = 2 ^ (e - d).toNat * 2 ^ d := by rw [zpow_pow]; congr 1; omega
  have hf : (2 : ℚ) ^ f = 2 ^ (f - d).toNat * 2 ^ d := by rw [zpow_pow]; congr 1; omega
  generalize hz : (if a = true then (-1 : ℤ) else 1) * (m * 2 ^ (e - d).toNat : Nat) + (if b = true then (-1 : ℤ) else 1) * (k * 2 ^ (f - d).toNat : Nat) = z
  have hs : ∀ c : Bool, (((if c = true then (-1 : ℤ) else 1) : ℤ) : ℚ) = sgn c := by intro c; cases c <;> simp [sgn]
  have hv : v + w = z * 2 ^ d := by
    rw [← hx, ← hy, he, hf, ← hz]
    push_cast [hs]
    ring
  rw [hv]
  by_cases h0 : z = 0
  · rw [if_pos h0, h0]
    have := round_rounded F hF (a && b) 0 0
    simpa [round] using this
  · rw [if_neg h0]
    have h := round_rounded F hF (decide (z < 0)) z.natAbs d
    rw [natAbs_q] at h
    exact h

theorem neg_val {x : Fl} {v : ℚ} (h : x.val = some v) : (neg x).val = some (-v) := by
  cases x with
  | nan => simp [Fl.val] at h
  | inf _ => simp [Fl.val] at h
  | fin a m e =>
    rw [val_fin, Option.some.injEq] at h
    rw [neg, val_fin, Option.some.injEq, ← h]
    cases a <;> simp [sgn]

theorem neg_has {F : Fmt} {x : Fl} (h : F.has x) : F.has (neg x) := by
  cases x <;> exact h

theorem add_has (F : Fmt) (hF : Fmt.Ok F) (x y : Fl) : F.has (add F x y) := by
  cases x <;> cases y <;> try trivial
  · rename_i a b
    show F.has (if a = b then .inf a else .nan)
    split <;> trivial
  · rename_i a m e b k f
    unfold add
    dsimp only
    generalize (if a = true then (-1 : ℤ) else 1) * (m * 2 ^ (e - min e f).toNat : Nat) + (if b = true then (-1 : ℤ) else 1) * (k * 2 ^ (f - min e f).toNat : Nat) = z
    by_cases h0 : z = 0
    · rw [if_pos h0]; exact ⟨by positivity, le_refl _, hF.2, .inr rfl⟩
    · rw [if_neg h0]; exact round_has F hF _ _ _

/-- Discarding the fraction. -/
theorem roundInt_trunc {x : Fl} {v : ℚ} (h : x.val = some v) : roundInt 3 x = some (truncated v) := by
  cases x with
  | nan => simp [Fl.val] at h
  | inf _ => simp [Fl.val] at h
  | fin n m e =>
  rw [val_fin, Option.some.injEq] at h
  unfold roundInt
  simp only [show ¬ ((3 : BitVec 2) = 0) by decide, show ¬ ((3 : BitVec 2) = 1) by decide, show ¬ ((3 : BitVec 2) = 2) by decide,
    false_and, or_self, if_false, Option.some.injEq]
  have key : ∃ a : Nat, (if 0 ≤ e then m * 2 ^ e.toNat else m / 2 ^ (-e).toNat) = a ∧ (a : ℚ) ≤ m * 2 ^ e ∧ (m : ℚ) * 2 ^ e < a + 1 := by
    by_cases he : 0 ≤ e
    · refine ⟨_, if_pos he, ?_, ?_⟩ <;> rw [zpow_nat he] <;> push_cast <;> linarith
    · refine ⟨_, if_neg he, ?_, ?_⟩
      all_goals
        have h1 : (2 : ℚ) ^ e * 2 ^ (-e).toNat = 1 := by
          rw [mul_comm, zpow_pow]
          rw [show e + ((-e).toNat : ℤ) = 0 by omega, zpow_zero]
        have h2 := Nat.div_add_mod m (2 ^ (-e).toNat)
        have h3 : m % 2 ^ (-e).toNat < 2 ^ (-e).toNat := Nat.mod_lt _ (by positivity)
        generalize m / 2 ^ (-e).toNat = a at *
        generalize m % 2 ^ (-e).toNat = r at *
        have h4 : (m : ℚ) = 2 ^ (-e).toNat * a + r := by rw [← h2]; push_cast; ring
        have h5 : (r : ℚ) < 2 ^ (-e).toNat := by rw [← two_pow_nat]; exact_mod_cast h3
        have h6 := two_zpow_pos e
        have h7 : (m : ℚ) * 2 ^ e = a + r * 2 ^ e := by 
          rw [h4]
          calc (2 ^ (-e).toNat * (a : ℚ) + r) * 2 ^ e = a * (2 ^ e * 2 ^ (-e).toNat) + r * 2 ^ e := by ring
            _ = _ := by rw [h1, mul_one]
        have h8 : (r : ℚ) * 2 ^ e < 1 := by
          calc (r : ℚ) * 2 ^ e < 2 ^ (-e).toNat * 2 ^ e := mul_lt_mul_of_pos_right h5 h6
            _ = 1 := by rw [mul_comm]; exact h1
        have h9 : (0 : ℚ) ≤ r * 2 ^ e := by positivity
        linarith
  obtain ⟨a, ha, hlo, hhi⟩ := key
  rw [ha]
  have h0 : (0 : ℚ) ≤ m * 2 ^ e := by positivity
  unfold truncated
  rw [← h]
  cases n with
  | false =>
    simp only [sgn, Bool.false_eq_true, if_false, one_mul]
    rw [if_pos h0]
    exact (Int.floor_eq_iff.2 ⟨by exact_mod_cast hlo, by exact_mod_cast hhi⟩).symm
  | true =>
    simp only [sgn, if_true]
    by_cases hz : (0 : ℚ) ≤ -1 * m * 2 ^ e
    · rw [if_pos hz]
      have hm : (m : ℚ) * 2 ^ e = 0 := by nlinarith
      have ha0 : a = 0 := by
        have : (a : ℚ) ≤ 0 := by linarith
        exact Nat.le_zero.1 (by exact_mod_cast this)
      rw [show (-1 : ℚ) * m * 2 ^ e = 0 by linarith, ha0]; simp
    · rw [if_neg hz]
      refine (Int.ceil_eq_iff.2 ⟨?_, ?_⟩).symm
      · push_cast; linarith
      · push_cast; linarith

/-- The interchange formats of the machine. -/
def Width (F : Fmt) (w : Nat) : Prop := Fmt.Ok F ∧ 2 ^ (w - 1) = ((F.emax - F.emin).toNat + 3) * 2 ^ (F.p - 1)

theorem width32 : Width f32 32 := ⟨⟨by decide, by decide⟩, by decide⟩
theorem width64 : Width f64 64 := ⟨⟨by decide, by decide⟩, by decide⟩
theorem ok80 : Fmt.Ok f80 := ⟨by decide, by decide⟩

theorem pow_pred {p : Nat} (h : 1 ≤ p) : 2 ^ p = 2 * 2 ^ (p - 1) := by
  conv_lhs => rw [show p = p - 1 + 1 by omega]
  rw [Nat.pow_succ, Nat.mul_comm]

theorem split_bits (P T W : Nat) (hP : 0 < P) (hW : W = (T + 3) * P) (s : Bool) (ex fr : Nat) (he : ex < T + 3) (hf : fr < P) :
    ((if s then W else 0) + (ex * P + fr)) / W % 2 = (if s then 1 else 0) ∧
    ((if s then W else 0) + (ex * P + fr)) % W / P = ex ∧ ((if s then W else 0) + (ex * P + fr)) % P = fr ∧
    (if s then W else 0) + (ex * P + fr) < 2 * W := by
  have ht : ex * P + fr < W := by
    rw [hW]
    calc ex * P + fr < ex * P + P := by omega
      _ = (ex + 1) * P := by ring
      _ ≤ (T + 3) * P := Nat.mul_le_mul_right _ (by omega)
  have hW0 : 0 < W := by omega
  have hfr : (ex * P + fr) % P = fr := by
    rw [Nat.add_comm, Nat.add_mul_mod_self_right, Nat.mod_eq_of_lt hf]
  have hex : (ex * P + fr) / P = ex := by
    rw [Nat.add_comm, Nat.add_mul_div_right _ _ hP, Nat.div_eq_of_lt hf]; omega
  cases s with
  | false =>
    simp only [Bool.false_eq_true, if_false, Nat.zero_add]
    exact ⟨by rw [Nat.div_eq_of_lt ht], by rw [Nat.mod_eq_of_lt ht]; exact hex, hfr, by omega⟩
  | true =>
    simp only [if_true]
    refine ⟨?_, ?_, ?_, by omega⟩
    · rw [Nat.add_div_left _ hW0, Nat.div_eq_of_lt ht]
    · rw [Nat.add_mod_left, Nat.mod_eq_of_lt ht]; exact hex
    · rw [hW, ← Nat.add_assoc, ← Nat.add_mul, Nat.add_comm, Nat.add_mul_mod_self_right, Nat.mod_eq_of_lt hf]

theorem decode_parts {F : Fmt} {w : Nat} {b : Nat} {s : Bool} {ex fr : Nat}
    (h1 : b / 2 ^ (w - 1) % 2 = (if s then 1 else 0)) (h2 : b % 2 ^ (w - 1) / 2 ^ (F.p - 1) = ex) (h3 : b % 2 ^ (F.p - 1) = fr) :
    decode F w b = if ex = 0 then .fin s fr F.emin
      else if (ex : Int) = F.emax - F.emin + 2 then (if fr = 0 then .inf s else .nan)
      else .fin s (2 ^ (F.p - 1) + fr) (F.emin + ex - 1) := by
  unfold decode
  rw [h1, h2, h3]
  have : decide ((if s then 1 else 0) = 1) = s := by cases s <;> rfl
  rw [this]

theorem decode_encode {F : Fmt} {w : Nat} (hW : Width F w) {x : Fl} (h : F.has x) :
    decode F w (encode F w x) = x ∧ encode F w x < 2 * 2 ^ (w - 1) := by
  obtain ⟨⟨hp, hm⟩, hw⟩ := hW
  have hP : 0 < 2 ^ (F.p - 1) := by positivity
  generalize hT : (F.emax - F.emin).toNat = T at hw
  have hTe : (F.emax - F.emin + 2).toNat = T + 2 := by omega
  cases x with
  | nan =>
    have hfr : 2 ^ (F.p - 2) < 2 ^ (F.p - 1) := Nat.pow_lt_pow_right (by omega) (by omega)
    obtain ⟨a, b, c, d⟩ := split_bits (2 ^ (F.p - 1)) T _ hP hw false (T + 2) (2 ^ (F.p - 2)) (by omega) hfr
    have he : encode F w .nan = (if false then 2 ^ (w - 1) else 0) + ((T + 2) * 2 ^ (F.p - 1) + 2 ^ (F.p - 2)) := by
      unfold encode; rw [hTe]; simp
    rw [he]
    refine ⟨?_, d⟩
    rw [decode_parts a b c, if_neg (by omega), if_pos (by omega), if_neg (by positivity)]
  | inf n =>
    obtain ⟨a, b, c, d⟩ := split_bits (2 ^ (F.p - 1)) T _ hP hw n (T + 2) 0 (by omega) hP
    have he : encode F w (.inf n) = (if n then 2 ^ (w - 1) else 0) + ((T + 2) * 2 ^ (F.p - 1) + 0) := by
      unfold encode; rw [hTe]; simp
    rw [he]
    refine ⟨?_, d⟩
    rw [decode_parts a b c, if_neg (by omega), if_pos (by omega), if_pos rfl]
  | fin n m e =>
    obtain ⟨h1, h2, h3, h4⟩ := h
    rw [pow_pred (by omega)] at h1
    by_cases hlt : m < 2 ^ (F.p - 1)
    · have hee : e = F.emin := by rcases h4 with h4 | h4; omega; exact h4
      obtain ⟨a, b, c, d⟩ := split_bits (2 ^ (F.p - 1)) T _ hP hw n 0 m (by omega) hlt
      have he : encode F w (.fin n m e) = (if n then 2 ^ (w - 1) else 0) + (0 * 2 ^ (F.p - 1) + m) := by
        unfold encode; rw [hee]; simp
      rw [he]
      refine ⟨?_, d⟩
      rw [decode_parts a b c, if_pos rfl, hee]
    · obtain ⟨a, b, c, d⟩ := split_bits (2 ^ (F.p - 1)) T _ hP hw n ((e - F.emin).toNat + 1) (m - 2 ^ (F.p - 1)) (by omega) (by omega)
      have he : encode F w (.fin n m e) = (if n then 2 ^ (w - 1) else 0) + (((e - F.emin).toNat + 1) * 2 ^ (F.p - 1) + (m - 2 ^ (F.p - 1))) := by
        show (if n then 2 ^ (w - 1) else 0) + ((e - F.emin).toNat * 2 ^ (F.p - 1) + m) = _
        rw [Nat.add_mul, Nat.one_mul]; omega
      rw [he]
      refine ⟨?_, d⟩
      rw [decode_parts a b c, if_neg (by omega), if_neg (by omega)]
      congr 1 <;> omega

theorem decode_has {F : Fmt} {w : Nat} (hW : Width F w) (b : Nat) : F.has (decode F w b) := by
  obtain ⟨⟨hp, hm⟩, hw⟩ := hW
  have hP : 0 < 2 ^ (F.p - 1) := by positivity
  have hfr : b % 2 ^ (F.p - 1) < 2 ^ (F.p - 1) := Nat.mod_lt _ hP
  have hex : b % 2 ^ (w - 1) / 2 ^ (F.p - 1) < (F.emax - F.emin).toNat + 3 := by
    rw [Nat.div_lt_iff_lt_mul hP, ← hw]
    exact Nat.mod_lt _ (by positivity)
  have h2 := pow_pred (p := F.p) (by omega)
  unfold decode
  dsimp only
  generalize b % 2 ^ (w - 1) / 2 ^ (F.p - 1) = ex at *
  generalize b % 2 ^ (F.p - 1) = fr at *
  split
  · exact ⟨by omega, le_refl _, hm, .inr rfl⟩
  · split
    · split <;> trivial
    · exact ⟨by omega, by omega, by omega, .inl (by omega)⟩

/-- Rounding after halving, if the bit lost is kept in the last place. -/
theorem rne_sticky (n k : Nat) (hk : 2 ≤ k) : rne (n / 2 ||| n % 2) k = rne n (k + 1) := by
  obtain ⟨j, rfl⟩ : ∃ j, k = j + 2 := ⟨k - 2, by omega⟩
  have hor : n / 2 ||| n % 2 = n / 4 * 2 + (if n % 4 = 0 then 0 else 1) := by
    apply Nat.eq_of_testBit_eq
    intro i
    rw [Nat.testBit_or]
    rcases i with _ | i
    · have h4 : n % 4 < 4 := Nat.mod_lt _ (by omega)
      rw [Nat.testBit_zero, Nat.testBit_zero, Nat.testBit_zero]
      split
      · rw [show n / 2 % 2 = 0 by omega, show n % 2 % 2 = 0 by omega, show (n / 4 * 2 + 0) % 2 = 0 by omega]; rfl
      · rw [show (n / 4 * 2 + 1) % 2 = 1 by omega]
        by_cases hb : n % 2 = 1
        · simp [hb]
        · rw [show n / 2 % 2 = 1 by omega]; simp
    · rw [Nat.testBit_succ, Nat.testBit_succ, Nat.testBit_succ]
      rw [show n % 2 / 2 = 0 by omega, show n / 2 / 2 = n / 4 by omega]
      rw [show (n / 4 * 2 + if n % 4 = 0 then 0 else 1) / 2 = n / 4 by split <;> omega]
      simp
  rw [hor]
  have hc := Nat.div_add_mod (n / 4) (2 ^ (j + 1))
  have hr : n / 4 % 2 ^ (j + 1) < 2 ^ (j + 1) := Nat.mod_lt _ (by positivity)
  generalize n / 4 / 2 ^ (j + 1) = q at hc
  generalize hR : n / 4 % 2 ^ (j + 1) = r at hc hr
  have hn : n = 4 * (n / 4) + n % 4 := by omega
  have h4 : n % 4 < 4 := Nat.mod_lt _ (by omega)
  generalize n % 4 = t at *
  generalize n / 4 = c at *
  subst hn
  have p1 : 2 ^ (j + 1) = 2 * 2 ^ j := by rw [pow_succ]; ring
  have p2 : 2 ^ (j + 2) = 4 * 2 ^ j := by rw [pow_succ, pow_succ]; ring
  have p3 : 2 ^ (j + 2 + 1) = 8 * 2 ^ j := by rw [pow_succ, pow_succ, pow_succ]; ring
  have hP : 0 < 2 ^ j := by positivity
  unfold rne
  rw [p2, p3]
  rw [p1] at hc hr
  generalize 2 ^ j = P at *
  have d1 : ∀ b, b < 2 → (c * 2 + b) / (4 * P) = q ∧ (c * 2 + b) % (4 * P) = 2 * r + b := by
    intro b hb
    have e : c * 2 + b = (2 * r + b) + 4 * P * q := by rw [← hc]; ring
    rw [e, Nat.add_mul_div_left _ _ (by omega), Nat.add_mul_mod_self_left, Nat.div_eq_of_lt (by omega), Nat.mod_eq_of_lt (by omega)]
    omega
  have d2 : (4 * c + t) / (8 * P) = q ∧ (4 * c + t) % (8 * P) = 4 * r + t := by
    have e : 4 * c + t = (4 * r + t) + 8 * P * q := by rw [← hc]; ring
    rw [e, Nat.add_mul_div_left _ _ (by omega), Nat.add_mul_mod_self_left, Nat.div_eq_of_lt (by omega), Nat.mod_eq_of_lt (by omega)]
    omega
  rw [d2.1, d2.2]
  by_cases h0 : t = 0
  · rw [if_pos h0, (d1 0 (by omega)).1, (d1 0 (by omega)).2]
    congr 1
    apply propext
    constructor <;> intro h <;> omega
  · rw [if_neg h0, (d1 1 (by omega)).1, (d1 1 (by omega)).2]
    congr 1
    apply propext
    constructor <;> intro h <;> omega

end Slimcc.FP
