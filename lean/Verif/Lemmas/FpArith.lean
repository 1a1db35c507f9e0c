import Verif.Lemmas.FloatMul
import Verif.Lemmas.FpCast4
/-! The operations of the processor are those of IEEE 754, and these have one result. -/
set_option autoImplicit false
namespace Slimcc.FP
open Slimcc.Spec.FP

theorem sgn_xor (a b : Bool) : sgn (a ^^ b) = sgn a * sgn b := by cases a <;> cases b <;> simp [sgn]

theorem round_zero (F : Fmt) (n : Bool) (e : Int) : round F n 0 e = .fin n 0 F.emin := by unfold round; rw [if_pos rfl]

theorem val_zero {n : Bool} {m : Nat} {e : Int} {v : ℚ} (h : (Fl.fin n m e).val = some v) : v = 0 ↔ m = 0 := by
  rw [val_fin, Option.some.injEq] at h
  have h1 : sgn n ≠ 0 := by cases n <;> simp [sgn]
  rw [← h, mul_assoc, mul_eq_zero, mul_eq_zero]
  constructor
  · rintro (c | c | c)
    · exact absurd c h1
    · exact_mod_cast c
    · exact absurd c (two_zpow_pos e).ne'
  · rintro rfl; exact .inr (.inl (by simp))

theorem add_sum (F : Fmt) (hF : Fmt.Ok F) (x y : Fl) : Sum F x y (add F x y) := by
  cases x with
  | nan => rfl
  | inf a => cases y <;> rfl
  | fin a m e =>
    cases y with
    | nan => rfl
    | inf b => rfl
    | fin b k f =>
      refine ⟨_, _, val_fin a m e, val_fin b k f, add_rounded F hF (val_fin a m e) (val_fin b k f), fun h => ?_⟩
      unfold add
      dsimp only
      rw [if_pos]
      generalize hd : min e f = d
      have he : (2 : ℚ) ^ e = 2 ^ (e - d).toNat * 2 ^ d := by rw [zpow_pow]; congr 1; omega
      have hf : (2 : ℚ) ^ f = 2 ^ (f - d).toNat * 2 ^ d := by rw [zpow_pow]; congr 1; omega
      have hs : ∀ c : Bool, (((if c = true then (-1 : ℤ) else 1) : ℤ) : ℚ) = sgn c := by intro c; cases c <;> simp [sgn]
      rw [he, hf] at h
      have h2 : (sgn a * (m * 2 ^ (e - d).toNat) + sgn b * (k * 2 ^ (f - d).toNat)) * (2 : ℚ) ^ d = 0 := by rw [← h]; ring
      rcases mul_eq_zero.1 h2 with c | c
      · have h3 : ((((if a = true then (-1 : ℤ) else 1) * (m * 2 ^ (e - d).toNat : Nat) + (if b = true then (-1 : ℤ) else 1) * (k * 2 ^ (f - d).toNat : Nat) : ℤ)) : ℚ) = 0 := by
          push_cast [hs]
          rw [← c]
        exact_mod_cast h3
      · exact absurd c (two_zpow_pos d).ne'

theorem sub_sum (F : Fmt) (hF : Fmt.Ok F) (x y : Fl) : Sum F x (opposite y) (sub F x y) := by
  have : neg y = opposite y := by cases y <;> rfl
  unfold sub; rw [← this]; exact add_sum F hF x (neg y)

theorem mul_product (F : Fmt) (hF : Fmt.Ok F) (x y : Fl) : Product F x y (mul F x y) := by
  cases x with
  | nan => rfl
  | inf a => cases y <;> rfl
  | fin a m e =>
    cases y with
    | nan => rfl
    | inf b => rfl
    | fin b k f =>
      refine ⟨_, _, val_fin a m e, val_fin b k f, ?_, fun h => ?_⟩
      · have := round_rounded F hF (a ^^ b) (m * k) (e + f)
        rw [sgn_xor, zpow_split] at this
        show Rounded F _ (round F (a ^^ b) (m * k) (e + f))
        convert this using 1
        push_cast; ring
      · show round F (a ^^ b) (m * k) (e + f) = _
        have : m * k = 0 := by
          rcases mul_eq_zero.1 h with c | c
          · rw [(val_zero (val_fin a m e)).1 c, zero_mul]
          · rw [(val_zero (val_fin b k f)).1 c, mul_zero]
        rw [this, round_zero]

theorem div_quotient (F : Fmt) (hF : Fmt.Ok F) (x y : Fl) : Quotient F x y (div F x y) := by
  cases x with
  | nan => rfl
  | inf a => cases y <;> rfl
  | fin a m e =>
    cases y with
    | nan => rfl
    | inf b => rfl
    | fin b k f =>
      unfold Spec.FP.Quotient div
      dsimp only
      by_cases hk : k = 0
      · rw [if_pos hk, if_pos hk]
      · rw [if_neg hk, if_neg hk]
        have hk0 : (0 : ℚ) < k := by exact_mod_cast Nat.pos_of_ne_zero hk
        generalize hs : F.p + 2 + k.log2 = s
        have hdm := Nat.div_add_mod (m * 2 ^ s) k
        have hml := Nat.mod_lt (m * 2 ^ s) (Nat.pos_of_ne_zero hk)
        have hq : quot F m k = (2 * (m * 2 ^ s / k) + (if m * 2 ^ s % k = 0 then 0 else 1), s + 1) := by
          unfold quot; rw [← hs]
        rw [hq]
        dsimp only
        generalize m * 2 ^ s / k = Q at *
        generalize hr : m * 2 ^ s % k = r at *
        have hdq : (k : ℚ) * Q + r = m * 2 ^ s := by exact_mod_cast hdm
        generalize hE : e - f - ((s + 1 : Nat) : ℤ) = E
        have hval : sgn a * m * 2 ^ e / (sgn b * k * 2 ^ f) = sgn (a ^^ b) * (m * 2 ^ (s + 1) / k * 2 ^ E) := by
          have h2 : (2 : ℚ) ^ e = 2 ^ (s + 1) * 2 ^ E * 2 ^ f := by
            rw [zpow_pow, ← zpow_split]; congr 1; omega
          have hb : sgn b ≠ 0 := by cases b <;> simp [sgn]
          have hf := (two_zpow_pos f).ne'
          rw [h2, sgn_xor]
          field_simp
          rw [sq, sgn_mul, mul_one]
        refine ⟨_, _, val_fin a m e, val_fin b k f, ?_, fun h => ?_⟩
        · rw [hval]
          by_cases h0 : r = 0
          · rw [if_pos h0, add_zero]
            have := round_rounded F hF (a ^^ b) (2 * Q) E
            convert this using 1
            rw [h0] at hdq
            have : (m : ℚ) * 2 ^ (s + 1) / k = 2 * Q := by
              rw [div_eq_iff hk0.ne', pow_succ, ← mul_assoc, ← hdq]; push_cast; ring
            rw [this]; push_cast; ring
          · rw [if_neg h0]
            have hr0 : (0 : ℚ) < r := by exact_mod_cast Nat.pos_of_ne_zero h0
            have hrk : (r : ℚ) < k := by exact_mod_cast hml
            have hX : (m : ℚ) * 2 ^ (s + 1) / k = 2 * (Q + r / k) := by
              rw [div_eq_iff hk0.ne', pow_succ, ← mul_assoc, ← hdq]; field_simp
            have hrk1 : (r : ℚ) / k < 1 := (div_lt_one hk0).2 hrk
            have hrk0 : (0 : ℚ) < r / k := div_pos hr0 hk0
            have hU := two_zpow_pos E
            refine rounded_nudge hF (q := 2 * Q + 1) (E := E) ?_ (by omega) ?_ ?_ (round_rounded F hF (a ^^ b) (2 * Q + 1) E)
            · have hm : 1 ≤ m := by
                rcases Nat.eq_zero_or_pos m with c | c
                · rw [c] at hr; simp at hr; omega
                · exact c
              have h1 : 2 ^ (F.p + 1) * k ≤ 2 ^ s := by
                have := (log2_bounds hk).2
                calc 2 ^ (F.p + 1) * k ≤ 2 ^ (F.p + 1) * 2 ^ (k.log2 + 1) := Nat.mul_le_mul_left _ this.le
                  _ = 2 ^ s := by rw [← pow_add, ← hs]; congr 1; omega
              have h2 : 2 ^ s ≤ m * 2 ^ s := Nat.le_mul_of_pos_left _ hm
              have h3 : 2 ^ (F.p + 1) ≤ Q := by
                by_contra hc
                have : Q + 1 ≤ 2 ^ (F.p + 1) := by omega
                have h4 : k * (Q + 1) ≤ k * 2 ^ (F.p + 1) := Nat.mul_le_mul_left _ this
                have h5 : k * (Q + 1) = k * Q + k := by ring
                have h6 : k * 2 ^ (F.p + 1) = 2 ^ (F.p + 1) * k := by ring
                omega
              omega
            · rw [hX]; push_cast
              exact mul_lt_mul_of_pos_right (by linarith) hU
            · rw [hX]; push_cast
              exact mul_lt_mul_of_pos_right (by linarith) hU
        · have hm : m = 0 := by
            rcases div_eq_zero_iff.1 h with c | c
            · exact (val_zero (val_fin a m e)).1 c
            · exact absurd ((val_zero (val_fin b k f)).1 c) hk
          rw [hm] at hdm hr
          simp at hr
          subst hr
          have : Q = 0 := by
            rcases Nat.eq_zero_or_pos Q with c | c
            · exact c
            · exfalso
              have := Nat.mul_pos (Nat.pos_of_ne_zero hk) c
              rw [zero_mul] at hdm
              omega
          rw [this]
          exact round_zero _ _ _

/-! One result. -/

theorem sum_unique {F : Fmt} (hF : Fmt.Ok F) {x y r r' : Fl} (h : Sum F x y r) (h' : Sum F x y r') : r = r' := by
  cases x with
  | nan => exact h.trans h'.symm
  | inf a => cases y <;> exact h.trans h'.symm
  | fin a m e =>
    cases y with
    | nan => exact h.trans h'.symm
    | inf b => exact h.trans h'.symm
    | fin b k f =>
      obtain ⟨v, w, hv, hw, h1, h2⟩ := h
      obtain ⟨v', w', hv', hw', h1', h2'⟩ := h'
      rw [hv, Option.some.injEq] at hv'
      rw [hw, Option.some.injEq] at hw'
      subst hv' hw'
      by_cases c : v + w = 0
      · rw [h2 c, h2' c]
      · exact rounded_unique hF c h1 h1'

theorem product_unique {F : Fmt} (hF : Fmt.Ok F) {x y r r' : Fl} (h : Product F x y r) (h' : Product F x y r') : r = r' := by
  cases x with
  | nan => exact h.trans h'.symm
  | inf a => cases y <;> exact h.trans h'.symm
  | fin a m e =>
    cases y with
    | nan => exact h.trans h'.symm
    | inf b => exact h.trans h'.symm
    | fin b k f =>
      obtain ⟨v, w, hv, hw, h1, h2⟩ := h
      obtain ⟨v', w', hv', hw', h1', h2'⟩ := h'
      rw [hv, Option.some.injEq] at hv'
      rw [hw, Option.some.injEq] at hw'
      subst hv' hw'
      by_cases c : v * w = 0
      · rw [h2 c, h2' c]
      · exact rounded_unique hF c h1 h1'

theorem quotient_unique {F : Fmt} (hF : Fmt.Ok F) {x y r r' : Fl} (h : Quotient F x y r) (h' : Quotient F x y r') : r = r' := by
  cases x with
  | nan => exact h.trans h'.symm
  | inf a => cases y <;> exact h.trans h'.symm
  | fin a m e =>
    cases y with
    | nan => exact h.trans h'.symm
    | inf b => exact h.trans h'.symm
    | fin b k f =>
      unfold Spec.FP.Quotient at h h'
      dsimp only at h h'
      by_cases hk : k = 0
      · rw [if_pos hk] at h h'; exact h.trans h'.symm
      rw [if_neg hk] at h h'
      obtain ⟨v, w, hv, hw, h1, h2⟩ := h
      obtain ⟨v', w', hv', hw', h1', h2'⟩ := h'
      rw [hv, Option.some.injEq] at hv'
      rw [hw, Option.some.injEq] at hw'
      subst hv' hw'
      by_cases c : v / w = 0
      · rw [h2 c, h2' c]
      · exact rounded_unique hF c h1 h1'

theorem fromInt_unique {F : Fmt} (hF : Fmt.Ok F) {z : ℤ} {r r' : Fl} (h : FromInt F z r) (h' : FromInt F z r') : r = r' := by
  by_cases c : z = 0
  · rw [h.2 c, h'.2 c]
  · exact rounded_unique hF (by exact_mod_cast c) h.1 h'.1

theorem rounded_zero {F : Fmt} (hF : Fmt.Ok F) {r : Fl} (h : Rounded F 0 r) : ∃ n, r = .fin n 0 F.emin := by
  cases h with
  | over _ h e =>
    exfalso
    have h1 : (1 : ℚ) ≤ 2 ^ (F.p + 1) - 1 := by
      have : (2 : ℚ) ^ 1 ≤ 2 ^ (F.p + 1) := pow_le_pow_right₀ (by norm_num) (by omega)
      linarith
    rw [abs_zero] at h
    have := mul_pos (show (0 : ℚ) < 2 ^ (F.p + 1) - 1 by linarith) (two_zpow_pos (F.emax - 1))
    linarith
  | near n m e v hv has lt near =>
    have := near (.fin false 0 F.emin) 0 (sgn_zero hF) (by simp [Fl.val])
    rw [sub_self, abs_zero, zero_sub, abs_neg] at this
    have h0 : v = 0 := abs_eq_zero.1 (le_antisymm this (abs_nonneg _))
    have hm := (val_zero hv).1 h0
    subst hm
    obtain ⟨-, -, -, h4⟩ := has
    refine ⟨n, ?_⟩
    rcases h4 with c | c
    · have : 0 < 2 ^ (F.p - 1) := by positivity
      omega
    · rw [c]

theorem converted_unique {F : Fmt} (hF : Fmt.Ok F) {x r r' : Fl} (h : Converted F x r) (h' : Converted F x r') : r = r' := by
  cases x with
  | nan => rw [h.1 rfl, h'.1 rfl]
  | inf n => rw [h.2.1 n rfl, h'.2.1 n rfl]
  | fin n m e =>
    have h1 := h.2.2.2 _ (val_fin n m e)
    have h1' := h'.2.2.2 _ (val_fin n m e)
    by_cases c : sgn n * (m : ℚ) * 2 ^ e = 0
    · rw [c] at h1 h1'
      obtain ⟨a, ha⟩ := rounded_zero hF h1
      obtain ⟨b, hb⟩ := rounded_zero hF h1'
      have g : a = n := by
        rcases h.2.2.1 n m e rfl with q | ⟨m', e', q⟩
        · rw [ha] at q; cases q
        · rw [ha] at q; injection q
      have g' : b = n := by
        rcases h'.2.2.1 n m e rfl with q | ⟨m', e', q⟩
        · rw [hb] at q; cases q
        · rw [hb] at q; injection q
      rw [ha, hb, g, g']
    · exact rounded_unique hF c h1 h1'

/-! Comparison. -/

theorem place_fin (n : Bool) (m : Nat) (e : Int) : (Fl.fin n m e).place = some (((sgn n * m * 2 ^ e : ℚ) : WithTop ℚ) : WithBot (WithTop ℚ)) := rfl

theorem compare_place (x y : Fl) :
    (compare x y = none ∧ (x.place = none ∨ y.place = none)) ∨
    ∃ a b, x.place = some a ∧ y.place = some b ∧ compare x y = some (decide (a < b), decide (a = b)) := by
  cases x with
  | nan => exact .inl ⟨rfl, .inl rfl⟩
  | inf a =>
    cases y with
    | nan => exact .inl ⟨by cases a <;> rfl, .inr rfl⟩
    | inf b =>
      right
      cases a <;> cases b <;> exact ⟨_, _, rfl, rfl, by simp [compare]⟩
    | fin b k f =>
      right
      cases a
      · exact ⟨_, _, rfl, rfl, by simp [compare]⟩
      · exact ⟨_, _, rfl, rfl, by simp [compare, WithBot.bot_lt_coe]⟩
  | fin a m e =>
    cases y with
    | nan => exact .inl ⟨rfl, .inr rfl⟩
    | inf b =>
      right
      cases b
      · refine ⟨_, _, place_fin a m e, rfl, ?_⟩
        have h1 := WithBot.coe_lt_coe.2 (WithTop.coe_lt_top (sgn a * m * 2 ^ e : ℚ))
        simp only [compare]
        rw [decide_eq_true h1, decide_eq_false h1.ne]; rfl
      · exact ⟨_, _, rfl, rfl, by simp [compare]⟩
    | fin b k f =>
      right
      refine ⟨_, _, place_fin a m e, place_fin b k f, ?_⟩
      rw [compare_val (val_fin a m e) (val_fin b k f)]
      simp [WithBot.coe_lt_coe, WithTop.coe_lt_coe]

end Slimcc.FP
