import Verif.Lemmas.FloatOps
import Verif.Model.FloatMul
import Verif.Spec.FpArith
/-! The rounded value is unique; products and quotients. -/
set_option autoImplicit false
namespace Slimcc.FP
open Slimcc.Spec.FP

/-- Magnitudes: between a number of the format and a greater one there is the successor. -/
theorem next_le {F : Fmt} (hF : Fmt.Ok F) {n n' : Bool} {m k : Nat} {e f : ℤ} (h : F.has (.fin n m e)) (h' : F.has (.fin n' k f))
    (hlt : (m : ℚ) * 2 ^ e < k * 2 ^ f) : ((m : ℚ) + 1) * 2 ^ e ≤ k * 2 ^ f := by
  obtain ⟨a1, a2, a3, a4⟩ := h
  obtain ⟨b1, b2, b3, b4⟩ := h'
  by_cases hc : e ≤ f
  · have e1 : (2 : ℚ) ^ f = 2 ^ (f - e).toNat * 2 ^ e := by
      rw [zpow_pow]; congr 1; omega
    rw [e1, ← mul_assoc] at hlt ⊢
    have hp := two_zpow_pos e
    have h1 : (m : ℚ) < k * 2 ^ (f - e).toNat := lt_of_mul_lt_mul_right hlt hp.le
    have h2 : m + 1 ≤ k * 2 ^ (f - e).toNat := by exact_mod_cast h1
    have h3 : (m : ℚ) + 1 ≤ k * 2 ^ (f - e).toNat := by exact_mod_cast h2
    exact mul_le_mul_of_nonneg_right h3 hp.le
  · exfalso
    have hm : 2 ^ (F.p - 1) ≤ m := by
      rcases a4 with a | a
      · exact a
      · omega
    have h1 : (2 : ℚ) ^ (F.p - 1) * 2 ^ e ≤ m * 2 ^ e := by
      refine mul_le_mul_of_nonneg_right ?_ (two_zpow_pos e).le
      rw [← two_pow_nat]; exact_mod_cast hm
    have h2 : (k : ℚ) * 2 ^ f ≤ 2 ^ F.p * 2 ^ f := by
      refine mul_le_mul_of_nonneg_right ?_ (two_zpow_pos f).le
      rw [← two_pow_nat]; exact_mod_cast b1.le
    rw [zpow_pow] at h1 h2
    have h3 : (2 : ℚ) ^ (f + F.p) ≤ 2 ^ (e + (F.p - 1 : Nat)) := zpow_le (by have := hF.1; omega)
    linarith

theorem canon {F : Fmt} (hF : Fmt.Ok F) {n n' : Bool} {m k : Nat} {e f : ℤ} (h : F.has (.fin n m e)) (h' : F.has (.fin n' k f))
    (heq : (m : ℚ) * 2 ^ e = k * 2 ^ f) : m = k ∧ e = f := by
  have key : ∀ {n n' : Bool} {m k : Nat} {e f : ℤ}, F.has (.fin n m e) → F.has (.fin n' k f) → (m : ℚ) * 2 ^ e = k * 2 ^ f → e ≤ f := by
    intro n n' m k e f h h' heq
    by_contra hc
    obtain ⟨a1, a2, a3, a4⟩ := h
    obtain ⟨b1, b2, b3, b4⟩ := h'
    have hm : 2 ^ (F.p - 1) ≤ m := by
      rcases a4 with a | a
      · exact a
      · omega
    have h1 : (2 : ℚ) ^ (F.p - 1) * 2 ^ e ≤ m * 2 ^ e := by
      refine mul_le_mul_of_nonneg_right ?_ (two_zpow_pos e).le
      rw [← two_pow_nat]; exact_mod_cast hm
    have h2 : (k : ℚ) * 2 ^ f < 2 ^ F.p * 2 ^ f := by
      refine mul_lt_mul_of_pos_right ?_ (two_zpow_pos f)
      rw [← two_pow_nat]; exact_mod_cast b1
    rw [zpow_pow] at h1 h2
    have h3 : (2 : ℚ) ^ (f + F.p) ≤ 2 ^ (e + (F.p - 1 : Nat)) := zpow_le (by have := hF.1; omega)
    linarith
  have e1 : e = f := le_antisymm (key h h' heq) (key h' h heq.symm)
  subst e1
  exact ⟨by exact_mod_cast mul_right_cancel₀ (two_zpow_pos e).ne' heq, rfl⟩

/-- Of two distinct magnitudes equally near to a number, with nothing nearer, one is odd. -/
theorem two_nearest {F : Fmt} (hF : Fmt.Ok F) {n n' : Bool} {m k : Nat} {e f : ℤ} (h : F.has (.fin n m e)) (h' : F.has (.fin n' k f))
    (hlt : (m : ℚ) * 2 ^ e < k * 2 ^ f) (hm : m % 2 = 0) (hk : k % 2 = 0)
    (hn : ∀ n j g, F.has (.fin n j g) → ¬ ((m : ℚ) * 2 ^ e < j * 2 ^ g ∧ (j : ℚ) * 2 ^ g < k * 2 ^ f)) : False := by
  have h1 := next_le hF h h' hlt
  obtain ⟨a1, a2, a3, a4⟩ := h
  have hs : m + 1 < 2 ^ F.p := by
    have : 2 ^ F.p % 2 = 0 := by rw [pow_pred (by have := hF.1; omega)]; omega
    omega
  have hh : F.has (.fin n (m + 1) e) := ⟨hs, a2, a3, a4.imp (fun a => by omega) id⟩
  have hp := two_zpow_pos e
  rcases lt_or_eq_of_le h1 with c | c
  · refine hn n (m + 1) e hh ⟨?_, by push_cast; exact c⟩
    push_cast; nlinarith
  · have := (canon hF hh h' (by push_cast; exact c)).1
    omega

theorem sgn_zero {F : Fmt} (hF : Fmt.Ok F) : F.has (.fin false 0 F.emin) := ⟨by positivity, le_refl _, hF.2, .inr rfl⟩

/-- The number nearest to a given one is unique, but for the sign of zero. -/
theorem rounded_unique {F : Fmt} (hF : Fmt.Ok F) {x : ℚ} (hx : x ≠ 0) {r r' : Fl} (h : Rounded F x r) (h' : Rounded F x r') : r = r' := by
  cases h with
  | over _ h e =>
    cases h' with
    | over _ h' e' => rw [e, e']
    | near _ _ _ _ _ _ lt => linarith
  | near n m e v hv has lt near even sign =>
    cases h' with
    | over _ h' e' => linarith
    | near n' k f w hw has' lt' near' even' sign' =>
      have hn : n = n' := by
        rcases lt_or_gt_of_ne hx with c | c
        · rw [sign.1 c, sign'.1 c]
        · rw [sign.2 c, sign'.2 c]
      subst hn
      have he : |x - v| = |x - w| := le_antisymm (near _ _ has' hw) (near' _ _ has hv)
      rw [val_fin, Option.some.injEq] at hv hw
      by_cases c : v = w
      · have : (m : ℚ) * 2 ^ e = k * 2 ^ f := by
          have h1 : sgn n * ((m : ℚ) * 2 ^ e) = sgn n * (k * 2 ^ f) := by rw [← mul_assoc, ← mul_assoc, hv, hw, c]
          have := congrArg (sgn n * ·) h1
          simpa only [sgn_sgn] using this
        obtain ⟨rfl, rfl⟩ := canon hF has has' this
        rfl
      · exfalso
        have em := even _ w has' (by rw [val_fin, hw]) (Ne.symm c) he
        have ek := even' _ v has (by rw [val_fin, hv]) c he.symm
        -- work with magnitudes
        have hX : ∀ j : ℚ, |x - sgn n * j| = |sgn n * x - j| := by
          intro j
          have := abs_sgn_sub n x j
          exact this.symm
        have hv' : v = sgn n * (m * 2 ^ e) := by rw [← hv]; ring
        have hw' : w = sgn n * (k * 2 ^ f) := by rw [← hw]; ring
        rw [hv', hw', hX, hX] at he
        have hne : (m : ℚ) * 2 ^ e ≠ k * 2 ^ f := fun hh => c (by rw [hv', hw', hh])
        have nr : ∀ j g, F.has (.fin n j g) → |sgn n * x - m * 2 ^ e| ≤ |sgn n * x - j * 2 ^ g| := by
          intro j g hj
          have := near _ _ hj (val_fin n j g)
          rw [hv', hX, mul_assoc, hX] at this
          exact this
        generalize sgn n * x = X at *
        have any : ∀ n' j g, F.has (.fin n' j g) → F.has (.fin n j g) := fun _ _ _ h => h
        rcases lt_or_gt_of_ne hne with c1 | c1
        · refine two_nearest hF has has' c1 em ek fun n' j g hj hb => ?_
          have := nr j g (any n' j g hj)
          rcases abs_cases (X - m * 2 ^ e) with ⟨p1, p2⟩ | ⟨p1, p2⟩ <;> rcases abs_cases (X - k * 2 ^ f) with ⟨q1, q2⟩ | ⟨q1, q2⟩ <;>
            rcases abs_cases (X - j * 2 ^ g) with ⟨r1, r2⟩ | ⟨r1, r2⟩ <;> linarith [hb.1, hb.2]
        · refine two_nearest hF has' has c1 ek em fun n' j g hj hb => ?_
          have := nr j g (any n' j g hj)
          rcases abs_cases (X - m * 2 ^ e) with ⟨p1, p2⟩ | ⟨p1, p2⟩ <;> rcases abs_cases (X - k * 2 ^ f) with ⟨q1, q2⟩ | ⟨q1, q2⟩ <;>
            rcases abs_cases (X - j * 2 ^ g) with ⟨r1, r2⟩ | ⟨r1, r2⟩ <;> linarith [hb.1, hb.2]

theorem fourfold {F : Fmt} {n : Bool} {k : Nat} {f E : ℤ} (h : F.has (.fin n k f)) :
    (∃ z : ℤ, (k : ℚ) * 2 ^ f = z * (4 * 2 ^ E)) ∨ (F.emin ≤ E + 1 ∧ (k : ℚ) * 2 ^ f < 2 ^ (F.p + 1) * 2 ^ E) := by
  obtain ⟨b1, b2, b3, b4⟩ := h
  by_cases c : E + 2 ≤ f
  · refine .inl ⟨k * 2 ^ (f - (E + 2)).toNat, ?_⟩
    have : (2 : ℚ) ^ f = 2 ^ (f - (E + 2)).toNat * (4 * 2 ^ E) := by
      have e4 : (4 : ℚ) * 2 ^ E = 2 ^ (E + 2) := by rw [zpow_split]; norm_num; ring
      rw [e4, zpow_pow]; congr 1; omega
    rw [this]; push_cast; ring
  · refine .inr ⟨by omega, ?_⟩
    have h1 : (k : ℚ) < 2 ^ F.p := by rw [← two_pow_nat]; exact_mod_cast b1
    have h2 : (2 : ℚ) ^ f ≤ 2 ^ (E + 1) := zpow_le (by omega)
    have h3 : (2 : ℚ) ^ (E + 1) = 2 * 2 ^ E := by rw [zpow_split]; norm_num; ring
    calc (k : ℚ) * 2 ^ f ≤ k * 2 ^ (E + 1) := mul_le_mul_of_nonneg_left h2 (Nat.cast_nonneg _)
      _ < 2 ^ F.p * 2 ^ (E + 1) := mul_lt_mul_of_pos_right h1 (two_zpow_pos _)
      _ = _ := by rw [h3, pow_succ]; ring

/-- A number whose quarter unit is odd lies between the same neighbours and the same half-ways as any number less
than that quarter away. -/
theorem rounded_nudge {F : Fmt} (hF : Fmt.Ok F) {n : Bool} {q : Nat} {E : ℤ} {X : ℚ} (hq : 2 ^ (F.p + 1) ≤ q) (hodd : q % 2 = 1)
    (h1 : ((q : ℚ) - 1) * 2 ^ E < X) (h2 : X < ((q : ℚ) + 1) * 2 ^ E) {r : Fl} (h : Rounded F (sgn n * q * 2 ^ E) r) :
    Rounded F (sgn n * X) r := by
  have hU := two_zpow_pos E
  have hqe : 2 ^ (F.p + 1) + 1 ≤ q := by
    have : 2 ^ (F.p + 1) % 2 = 0 := by rw [pow_succ]; omega
    omega
  have hqq : (2 : ℚ) ^ (F.p + 1) + 1 ≤ q := by rw [← two_pow_nat]; exact_mod_cast hqe
  have hpw : (0 : ℚ) < 2 ^ (F.p + 1) := by positivity
  have hB : (2 : ℚ) ^ (F.p + 1) * 2 ^ E ≤ (q - 1) * 2 ^ E := mul_le_mul_of_nonneg_right (by linarith) hU.le
  have hB0 : 0 < (2 : ℚ) ^ (F.p + 1) * 2 ^ E := mul_pos hpw hU
  have hX0 : 0 < X := by linarith
  have hQ0 : 0 < (q : ℚ) * 2 ^ E := mul_pos (by linarith) hU
  have hsx : ∀ {Y : ℚ}, 0 < Y → |sgn n * Y| = Y ∧ decide (sgn n * Y < 0) = n ∧ (sgn n * Y < 0 → n = true) ∧ (0 < sgn n * Y → n = false) := by
    intro Y hY
    refine ⟨by rw [abs_mul, abs_sgn, one_mul, abs_of_pos hY], ?_, ?_⟩
    · cases n <;> simp [sgn] <;> linarith
    · cases n <;> simp [sgn] <;> linarith
  rw [mul_assoc] at h
  -- the threshold of infinity
  have hT : (∃ t : ℤ, (2 ^ (F.p + 1) - 1) * (2 : ℚ) ^ (F.emax - 1) = t * (2 * 2 ^ E)) ∧ E + 1 ≤ F.emax - 1 ∨
      (2 ^ (F.p + 1) - 1) * (2 : ℚ) ^ (F.emax - 1) < 2 ^ (F.p + 1) * 2 ^ E := by
    by_cases c : E + 1 ≤ F.emax - 1
    · refine .inl ⟨⟨(2 ^ (F.p + 1) - 1) * 2 ^ (F.emax - 1 - (E + 1)).toNat, ?_⟩, c⟩
      have : (2 : ℚ) ^ (F.emax - 1) = 2 ^ (F.emax - 1 - (E + 1)).toNat * (2 * 2 ^ E) := by
        have e4 : (2 : ℚ) * 2 ^ E = 2 ^ (E + 1) := by rw [zpow_split]; norm_num; ring
        rw [e4, zpow_pow]; congr 1; omega
      rw [this]; push_cast; ring
    · refine .inr ?_
      have h3 : (2 : ℚ) ^ (F.emax - 1) ≤ 2 ^ E := zpow_le (by omega)
      have h4 := two_zpow_pos (F.emax - 1)
      nlinarith
  cases h with
  | over _ h e =>
    rw [(hsx hQ0).1] at h
    rw [(hsx hQ0).2.1] at e
    refine .over _ ?_ (by rw [(hsx hX0).2.1]; exact e)
    rw [(hsx hX0).1]
    rcases hT with ⟨⟨t, ht⟩, -⟩ | ht
    · rw [ht] at h ⊢
      have h3 : (t : ℚ) * 2 ≤ q := by
        have : (t * 2 : ℚ) * 2 ^ E ≤ q * 2 ^ E := by linarith
        exact le_of_mul_le_mul_right this hU
      have h4 : t * 2 ≤ (q : ℤ) := by exact_mod_cast h3
      have h5 : t * 2 ≤ (q : ℤ) - 1 := by omega
      have h6 : (t : ℚ) * 2 ≤ q - 1 := by exact_mod_cast h5
      have : (t * 2 : ℚ) * 2 ^ E ≤ (q - 1) * 2 ^ E := mul_le_mul_of_nonneg_right h6 hU.le
      linarith
    · linarith
  | near n' m e v hv has lt near even sign =>
    have hn : n' = n := by
      have s1 := (hsx hQ0).2.2
      by_cases c : sgn n * (q * 2 ^ E) < 0
      · rw [s1.1 c, sign.1 c]
      · have : 0 < sgn n * ((q : ℚ) * 2 ^ E) := by
          rcases lt_trichotomy (sgn n * ((q : ℚ) * 2 ^ E)) 0 with g | g | g
          · exact absurd g c
          · have := (hsx hQ0).1; rw [g, abs_zero] at this; linarith
          · exact g
        rw [s1.2 this, sign.2 this]
    subst hn
    rw [(hsx hQ0).1] at lt
    have htt : ∃ t : ℤ, (2 ^ (F.p + 1) - 1) * (2 : ℚ) ^ (F.emax - 1) = t * (2 * 2 ^ E) ∧ E + 1 ≤ F.emax - 1 := by
      rcases hT with ⟨⟨t, ht⟩, c⟩ | ht
      · exact ⟨t, ht, c⟩
      · exfalso; linarith
    obtain ⟨t, ht, hE⟩ := htt
    rw [val_fin, Option.some.injEq, mul_assoc] at hv
    have hs : ∀ Y j : ℚ, |sgn n' * Y - sgn n' * j| = |Y - j| := by
      intro Y j; rw [← mul_sub, abs_mul, abs_sgn, one_mul]
    have nr : ∀ n2 j g, F.has (.fin n2 j g) → |(q : ℚ) * 2 ^ E - m * 2 ^ e| ≤ |(q : ℚ) * 2 ^ E - sgn n' * sgn n2 * (j * 2 ^ g)| := by
      intro n2 j g hj
      have := near _ _ hj (val_fin n2 j g)
      rw [← hv, hs, abs_sgn_sub] at this
      convert this using 3; ring
    -- the power of two below
    have hb : F.emin ≤ E + 1 → F.has (.fin n' (2 ^ (F.p - 1)) (E + 2)) := by
      intro c
      refine ⟨?_, by omega, by omega, .inl (le_refl _)⟩
      have := pow_pred (p := F.p) (by have := hF.1; omega)
      have : 0 < 2 ^ (F.p - 1) := by positivity
      omega
    have hbv : (((2 ^ (F.p - 1) : Nat) : ℚ)) * 2 ^ (E + 2) = 2 ^ (F.p + 1) * 2 ^ E := by
      rw [two_pow_nat, zpow_split]
      have : (2 : ℚ) ^ (F.p + 1) = 2 ^ (F.p - 1) * 4 := by
        conv_lhs => rw [show F.p + 1 = F.p - 1 + 2 by have := hF.1; omega]
        rw [pow_add]; norm_num
      rw [this]; norm_num; ring
    have one : ∀ Y : ℚ, sgn n' * sgn n' * Y = Y := fun Y => by rw [sgn_mul, one_mul]
    have hVm : ∃ a : ℤ, (m : ℚ) * 2 ^ e = a * (4 * 2 ^ E) := by
      rcases fourfold (E := E) has with g | ⟨g1, g2⟩
      · exact g
      · exfalso
        have := nr n' _ _ (hb g1)
        rw [one, hbv, abs_of_pos (by linarith), abs_of_nonneg (by linarith)] at this
        linarith
    obtain ⟨a, ha⟩ := hVm
    -- multiples of the unit stay as far
    have mult : ∀ b : ℤ, |(q : ℚ) * 2 ^ E - m * 2 ^ e| ≤ |(q : ℚ) * 2 ^ E - b * (4 * 2 ^ E)| → (b * (4 * 2 ^ E) : ℚ) ≠ m * 2 ^ e →
        |X - m * 2 ^ e| < |X - b * (4 * 2 ^ E)| := by
      intro b hle hne
      rw [ha] at hle hne ⊢
      have hab : a ≠ b := fun hh => hne (by rw [hh])
      rcases lt_or_gt_of_ne hab with c | c
      · have c' : (a : ℚ) < b := by exact_mod_cast c
        have h3 : (a : ℚ) * (4 * 2 ^ E) < b * (4 * 2 ^ E) := mul_lt_mul_of_pos_right c' (by linarith)
        have h4 : 2 * (q * 2 ^ E) ≤ (a : ℚ) * (4 * 2 ^ E) + b * (4 * 2 ^ E) := by
          rcases abs_cases ((q : ℚ) * 2 ^ E - a * (4 * 2 ^ E)) with ⟨p1, p2⟩ | ⟨p1, p2⟩ <;>
            rcases abs_cases ((q : ℚ) * 2 ^ E - b * (4 * 2 ^ E)) with ⟨q1, q2⟩ | ⟨q1, q2⟩ <;> linarith
        have h5 : (q : ℚ) ≤ 2 * (a + b) := by
          have : (q : ℚ) * 2 ^ E ≤ (2 * (a + b)) * 2 ^ E := by linarith
          exact le_of_mul_le_mul_right this hU
        have h6 : (q : ℤ) ≤ 2 * (a + b) := by exact_mod_cast h5
        have h7 : (q : ℤ) + 1 ≤ 2 * (a + b) := by omega
        have h8 : (q : ℚ) + 1 ≤ 2 * (a + b) := by exact_mod_cast h7
        have h9 : ((q : ℚ) + 1) * 2 ^ E ≤ 2 * (a + b) * 2 ^ E := mul_le_mul_of_nonneg_right h8 hU.le
        rcases abs_cases (X - a * (4 * 2 ^ E)) with ⟨p1, p2⟩ | ⟨p1, p2⟩ <;>
            rcases abs_cases (X - b * (4 * 2 ^ E)) with ⟨q1, q2⟩ | ⟨q1, q2⟩ <;> linarith
      · have c' : (b : ℚ) < a := by exact_mod_cast c
        have h3 : (b : ℚ) * (4 * 2 ^ E) < a * (4 * 2 ^ E) := mul_lt_mul_of_pos_right c' (by linarith)
        have h4 : (a : ℚ) * (4 * 2 ^ E) + b * (4 * 2 ^ E) ≤ 2 * (q * 2 ^ E) := by
          rcases abs_cases ((q : ℚ) * 2 ^ E - a * (4 * 2 ^ E)) with ⟨p1, p2⟩ | ⟨p1, p2⟩ <;>
            rcases abs_cases ((q : ℚ) * 2 ^ E - b * (4 * 2 ^ E)) with ⟨q1, q2⟩ | ⟨q1, q2⟩ <;> linarith
        have h5 : (2 * (a + b) : ℚ) ≤ q := by
          have : (2 * (a + b)) * 2 ^ E ≤ (q : ℚ) * 2 ^ E := by linarith
          exact le_of_mul_le_mul_right this hU
        have h6 : 2 * (a + b) ≤ (q : ℤ) := by exact_mod_cast h5
        have h7 : 2 * (a + b) ≤ (q : ℤ) - 1 := by omega
        have h8 : (2 * (a + b) : ℚ) ≤ q - 1 := by exact_mod_cast h7
        have h9 : 2 * (a + b) * 2 ^ E ≤ ((q : ℚ) - 1) * 2 ^ E := mul_le_mul_of_nonneg_right h8 hU.le
        rcases abs_cases (X - a * (4 * 2 ^ E)) with ⟨p1, p2⟩ | ⟨p1, p2⟩ <;>
            rcases abs_cases (X - b * (4 * 2 ^ E)) with ⟨q1, q2⟩ | ⟨q1, q2⟩ <;> linarith
    -- all others are farther
    have far : ∀ n2 j g, F.has (.fin n2 j g) → sgn n' * sgn n2 * (j * 2 ^ g) ≠ (m : ℚ) * 2 ^ e →
        |X - m * 2 ^ e| < |X - sgn n' * sgn n2 * (j * 2 ^ g)| := by
      intro n2 j g hj hne
      have hjle := nr n2 j g hj
      rcases fourfold (E := E) hj with ⟨b, hbq⟩ | ⟨g1, g2⟩
      · have hbs : ∃ b' : ℤ, sgn n' * sgn n2 * ((j : ℚ) * 2 ^ g) = b' * (4 * 2 ^ E) := by
          rw [hbq]
          cases n' <;> cases n2
          · exact ⟨b, by simp [sgn]⟩
          · exact ⟨-b, by simp [sgn]⟩
          · exact ⟨-b, by simp [sgn]⟩
          · exact ⟨b, by simp [sgn]⟩
        obtain ⟨b', hb'⟩ := hbs
        rw [hb'] at hjle hne ⊢
        exact mult b' hjle hne
      · have hlow : sgn n' * sgn n2 * ((j : ℚ) * 2 ^ g) < 2 ^ (F.p + 1) * 2 ^ E := by
          have h0 : 0 ≤ (j : ℚ) * 2 ^ g := mul_nonneg (Nat.cast_nonneg _) (two_zpow_pos g).le
          cases n' <;> cases n2 <;> simp [sgn] <;> linarith
        have hbb := nr n' _ _ (hb g1)
        rw [one, hbv] at hbb
        have e4 : (2 : ℚ) ^ (F.p + 1) * 2 ^ E = ((2 ^ (F.p - 1) : ℤ) : ℚ) * (4 * 2 ^ E) := by
          rw [← hbv, zpow_split]; push_cast; norm_num; ring
        have hmid : |X - m * 2 ^ e| ≤ |X - 2 ^ (F.p + 1) * 2 ^ E| := by
          by_cases c : ((2 : ℚ) ^ (F.p + 1) * 2 ^ E) = m * 2 ^ e
          · rw [c]
          · rw [e4] at hbb c ⊢
            exact (mult _ hbb c).le
        have : |X - 2 ^ (F.p + 1) * 2 ^ E| < |X - sgn n' * sgn n2 * (j * 2 ^ g)| := by
          rw [abs_of_pos (by linarith), abs_of_pos (by linarith)]; linarith
        linarith
    have conv : ∀ y w, F.has y → y.val = some w → w ≠ v → |sgn n' * X - v| < |sgn n' * X - w| := by
      intro y w hy hw hwv
      cases y with
      | nan => simp [Fl.val] at hw
      | inf _ => simp [Fl.val] at hw
      | fin n2 j g =>
        rw [val_fin, Option.some.injEq, mul_assoc] at hw
        have := far n2 j g hy (by
          intro hc
          apply hwv
          rw [← hw, ← hv, ← hc, mul_assoc (sgn n') (sgn n2), sgn_sgn])
        rw [← hv, hs, abs_sgn_sub, ← hw]
        convert this using 3; ring
    refine .near n' m e v (by rw [val_fin, mul_assoc, hv]) has ?_ ?_ ?_ (hsx hX0).2.2
    · rw [(hsx hX0).1, ht]
      rw [ht] at lt
      have h3 : (q : ℚ) < t * 2 := by
        have : (q : ℚ) * 2 ^ E < (t * 2 : ℚ) * 2 ^ E := by linarith
        exact lt_of_mul_lt_mul_right this hU.le
      have h4 : (q : ℤ) < t * 2 := by exact_mod_cast h3
      have h5 : (q : ℤ) + 1 ≤ t * 2 := by omega
      have h6 : (q : ℚ) + 1 ≤ t * 2 := by exact_mod_cast h5
      have : ((q : ℚ) + 1) * 2 ^ E ≤ (t * 2 : ℚ) * 2 ^ E := mul_le_mul_of_nonneg_right h6 hU.le
      linarith
    · intro y w hy hw
      by_cases c : w = v
      · rw [c]
      · exact (conv y w hy hw c).le
    · intro y w hy hw c he
      exact absurd he (conv y w hy hw c).ne

end Slimcc.FP
