import Verif.Model.Float
import Mathlib.Tactic.Linarith
import Mathlib.Tactic.Ring
import Mathlib.Tactic.Positivity
import Mathlib.Algebra.Order.Field.Power
/-! Rounding. -/
set_option autoImplicit false
namespace Slimcc.FP
open Slimcc.Spec.FP

theorem rne_near (n k : Nat) (c : ℤ) : |(n : ℤ) - rne n k * 2 ^ k| ≤ |(n : ℤ) - c * 2 ^ k| ∧
    (|(n : ℤ) - rne n k * 2 ^ k| = |(n : ℤ) - c * 2 ^ k| → c = rne n k ∨ rne n k % 2 = 0) := by
  have hP : (0 : ℤ) < 2 ^ k := by positivity
  have hd : (n : ℤ) = (n / 2 ^ k : Nat) * 2 ^ k + (n % 2 ^ k : Nat) := by
    have := Nat.div_add_mod n (2 ^ k)
    have h2 : ((2 ^ k * (n / 2 ^ k) + n % 2 ^ k : Nat) : ℤ) = n := by rw [this]
    rw [← h2]; push_cast; ring
  have hr : n % 2 ^ k < 2 ^ k := Nat.mod_lt _ (by positivity)
  have hr' : ((n % 2 ^ k : Nat) : ℤ) < 2 ^ k := by exact_mod_cast hr
  have hr0 : (0 : ℤ) ≤ (n % 2 ^ k : Nat) := by positivity
  generalize hq : n / 2 ^ k = q at *
  generalize hR : n % 2 ^ k = r at *
  have hrn : rne n k = if 2 ^ k < 2 * r ∨ (2 ^ k = 2 * r ∧ q % 2 = 1) then q + 1 else q := by
    unfold rne; rw [hq, hR]
  have hPz : ((2 ^ k : Nat) : ℤ) = 2 ^ k := by push_cast; rfl
  generalize hPn : (2 ^ k : Nat) = P at *
  generalize hPZ : (2 ^ k : ℤ) = Z at *
  by_cases hup : P < 2 * r ∨ (P = 2 * r ∧ q % 2 = 1)
  · rw [if_pos hup] at hrn
    rw [hrn]
    have h1 : (n : ℤ) - (q + 1 : Nat) * Z = r - Z := by rw [hd]; push_cast; ring
    rw [h1, abs_of_neg (by linarith)]
    have h2 : Z ≤ 2 * r := by rw [← hPz]; rcases hup with h | h <;> omega
    rcases lt_trichotomy c (q + 1 : Nat) with hc | hc | hc
    · have hcz : c ≤ q := by push_cast at hc; omega
      have h3 : (0 : ℤ) ≤ (q - c) * Z := mul_nonneg (by linarith) hP.le
      have h4 : (n : ℤ) - c * Z = (q - c) * Z + r := by rw [hd]; ring
      rw [h4, abs_of_nonneg (by linarith)]
      refine ⟨by linarith, fun he => .inr ?_⟩
      have h5 : Z = 2 * r := by linarith
      rcases hup with h | h
      · exfalso; rw [← hPz] at h5; omega
      · omega
    · rw [hc, h1, abs_of_neg (by linarith)]
      exact ⟨le_refl _, fun _ => .inl rfl⟩
    · have hcz : (q : ℤ) + 2 ≤ c := by push_cast at hc; omega
      have h3 : Z ≤ (c - q - 1) * Z := by nlinarith
      have h4 : (n : ℤ) - c * Z = r - Z - (c - q - 1) * Z := by rw [hd]; ring
      rw [h4, abs_of_neg (by linarith)]
      exact ⟨by linarith, fun he => by exfalso; linarith⟩
  · rw [if_neg hup] at hrn
    rw [hrn]
    have h1 : (n : ℤ) - (q : Nat) * Z = r := by rw [hd]; ring
    rw [h1, abs_of_nonneg hr0]
    have h2 : 2 * (r : ℤ) ≤ Z := by rw [← hPz]; omega
    rcases lt_trichotomy c (q : ℤ) with hc | hc | hc
    · have h3 : Z ≤ (q - c) * Z := by nlinarith
      have h4 : (n : ℤ) - c * Z = (q - c) * Z + r := by rw [hd]; ring
      rw [h4, abs_of_nonneg (by linarith)]
      exact ⟨by linarith, fun he => by exfalso; linarith⟩
    · rw [hc, h1, abs_of_nonneg hr0]
      exact ⟨le_refl _, fun _ => .inl rfl⟩
    · have hcz : (q : ℤ) + 1 ≤ c := by omega
      have h3 : (0 : ℤ) ≤ (c - q - 1) * Z := mul_nonneg (by linarith) hP.le
      have h4 : (n : ℤ) - c * Z = r - Z - (c - q - 1) * Z := by rw [hd]; ring
      rw [h4, abs_of_neg (by linarith)]
      refine ⟨by linarith, fun he => .inr ?_⟩
      have h5 : Z = 2 * r := by linarith
      rw [← hPz] at h5
      have h6 : P = 2 * r := by omega
      by_contra hodd
      exact hup (.inr ⟨h6, by omega⟩)

theorem two_zpow_pos (e : ℤ) : (0 : ℚ) < 2 ^ e := by positivity

theorem zpow_split (e k : ℤ) : (2 : ℚ) ^ (e + k) = 2 ^ e * 2 ^ k := zpow_add₀ (by norm_num) e k

theorem zpow_nat {k : ℤ} (h : 0 ≤ k) : (2 : ℚ) ^ k = (2 : ℚ) ^ k.toNat := by
  conv_lhs => rw [← Int.toNat_of_nonneg h]
  exact zpow_natCast 2 _

/-- The significand before overflow is looked at, and its exponent. -/
def sig (F : Fmt) (m : Nat) (e : Int) : Nat × Int :=
  let k : Int := max ((m.log2 : Int) + 1 - F.p) (F.emin - e)
  let q := if 0 ≤ k then rne m k.toNat else m * 2 ^ (-k).toNat
  if q = 2 ^ F.p then (2 ^ (F.p - 1), e + k + 1) else (q, e + k)

theorem round_sig (F : Fmt) (neg : Bool) (m : Nat) (e : Int) (h : m ≠ 0) :
    round F neg m e = if F.emax < (sig F m e).2 then .inf neg else .fin neg (sig F m e).1 (sig F m e).2 := by
  unfold round sig; rw [if_neg h]

/-- What the significand is: `q` units of `2 ^ E`, the nearest number of units. -/
theorem sig_spec (F : Fmt) (hp : 2 ≤ F.p) (m : Nat) (e : Int) (h : m ≠ 0) : ∃ (q : Nat) (E : ℤ),
    E = e + max ((m.log2 : Int) + 1 - F.p) (F.emin - e) ∧
    sig F m e = (if q = 2 ^ F.p then (2 ^ (F.p - 1), E + 1) else (q, E)) ∧
    (∀ c : ℤ, |(m : ℚ) * 2 ^ e - q * 2 ^ E| ≤ |(m : ℚ) * 2 ^ e - c * 2 ^ E| ∧
      (|(m : ℚ) * 2 ^ e - q * 2 ^ E| = |(m : ℚ) * 2 ^ e - c * 2 ^ E| → c = q ∨ q % 2 = 0)) := by
  refine ⟨_, _, rfl, rfl, ?_⟩
  generalize hk : max ((m.log2 : Int) + 1 - F.p) (F.emin - e) = k
  intro c
  by_cases hk0 : 0 ≤ k
  · rw [if_pos hk0]
    have key : ∀ c : ℤ, |(m : ℚ) * 2 ^ e - c * 2 ^ (e + k)| = (|(m : ℤ) - c * 2 ^ k.toNat| : ℤ) * 2 ^ e := by
      intro c
      rw [zpow_split, zpow_nat hk0, Int.cast_abs, show (m : ℚ) * 2 ^ e - c * (2 ^ e * 2 ^ k.toNat) = ((m : ℚ) - c * 2 ^ k.toNat) * 2 ^ e by ring,
        abs_mul, abs_of_pos (two_zpow_pos e)]
      push_cast; rfl
    have h1 := key (rne m k.toNat : ℤ)
    have h2 := key c
    rw [Int.cast_natCast] at h1
    rw [h1, h2]
    obtain ⟨n1, n2⟩ := rne_near m k.toNat c
    constructor
    · exact mul_le_mul_of_nonneg_right (by exact_mod_cast n1) (two_zpow_pos e).le
    · intro he
      have := mul_right_cancel₀ (two_zpow_pos e).ne' he
      exact n2 (by exact_mod_cast this)
  · rw [if_neg hk0]
    have hex : (m : ℚ) * 2 ^ e = (m * 2 ^ (-k).toNat : Nat) * 2 ^ (e + k) := by
      rw [Nat.cast_mul, Nat.cast_pow, Nat.cast_ofNat, ← zpow_nat (by omega), mul_assoc, ← zpow_split]
      congr 2; ring
    rw [← hex, sub_self, abs_zero]
    refine ⟨abs_nonneg _, fun he => ?_⟩
    left
    have h0 := abs_eq_zero.1 he.symm
    have h1 : ((m * 2 ^ (-k).toNat : Nat) : ℚ) * 2 ^ (e + k) = c * 2 ^ (e + k) := by rw [← hex]; linarith
    have := mul_right_cancel₀ (two_zpow_pos _).ne' h1
    exact_mod_cast this.symm

/-- Formats with at least two bits and a range of exponents. -/
def Fmt.Ok (F : Fmt) : Prop := 2 ≤ F.p ∧ F.emin ≤ F.emax

theorem two_pow_nat (n : Nat) : ((2 ^ n : Nat) : ℚ) = 2 ^ n := by push_cast; rfl

theorem zpow_le {a b : ℤ} (h : a ≤ b) : (2 : ℚ) ^ a ≤ 2 ^ b := zpow_le_zpow_right₀ (by norm_num) h

theorem zpow_pow (n : Nat) (e : ℤ) : (2 : ℚ) ^ n * 2 ^ e = 2 ^ (e + n) := by
  rw [zpow_split, zpow_natCast, mul_comm]

theorem log2_bounds {m : Nat} (h : m ≠ 0) : 2 ^ m.log2 ≤ m ∧ m < 2 ^ (m.log2 + 1) :=
  ⟨Nat.log2_self_le h, Nat.lt_log2_self⟩

/-- Facts about the units: the number has at most `p` bits of them, and `p` unless the unit is the least. -/
theorem sig_bounds (F : Fmt) (hF : Fmt.Ok F) (m : Nat) (e : Int) (h : m ≠ 0) (E : ℤ)
    (hE : E = e + max ((m.log2 : Int) + 1 - F.p) (F.emin - e)) :
    F.emin ≤ E ∧ (m : ℚ) * 2 ^ e < 2 ^ F.p * 2 ^ E ∧ (E = F.emin ∨ (2 : ℚ) ^ (F.p - 1) * 2 ^ E ≤ m * 2 ^ e) := by
  obtain ⟨hp, -⟩ := hF
  obtain ⟨l1, l2⟩ := log2_bounds h
  have u : (m : ℚ) * 2 ^ e < 2 ^ ((m.log2 : ℤ) + 1 + e) := by
    have : (m : ℚ) < 2 ^ (m.log2 + 1) := by rw [← two_pow_nat]; exact_mod_cast l2
    calc (m : ℚ) * 2 ^ e < 2 ^ (m.log2 + 1) * 2 ^ e := mul_lt_mul_of_pos_right this (two_zpow_pos e)
      _ = _ := by rw [zpow_pow]; congr 1; push_cast; ring
  have w : (2 : ℚ) ^ ((m.log2 : ℤ) + e) ≤ m * 2 ^ e := by
    have : (2 : ℚ) ^ m.log2 ≤ m := by rw [← two_pow_nat]; exact_mod_cast l1
    calc (2 : ℚ) ^ ((m.log2 : ℤ) + e) = 2 ^ m.log2 * 2 ^ e := by rw [zpow_pow]; congr 1; ring
      _ ≤ _ := mul_le_mul_of_nonneg_right this (two_zpow_pos e).le
  refine ⟨by omega, ?_, ?_⟩
  · refine lt_of_lt_of_le u ?_
    rw [zpow_pow]; exact zpow_le (by omega)
  · by_cases hc : (m.log2 : Int) + 1 - F.p ≤ F.emin - e
    · left; rw [hE, max_eq_right hc]; ring
    · right
      refine le_trans (le_of_eq ?_) w
      rw [zpow_pow, hE, max_eq_left (by omega)]; congr 1
      have : ((F.p - 1 : Nat) : ℤ) = F.p - 1 := by omega
      rw [this]; ring

/-- Distance to a number is at most that to its neighbours: half a unit. -/
theorem half_unit {X U : ℚ} {q c : ℚ} (hU : 0 < U) (h : |X - q * U| ≤ |X - c * U|) :
    (c = q + 1 → X ≤ (q + 1 / 2) * U) ∧ (c = q - 1 → (q - 1 / 2) * U ≤ X) := by
  refine ⟨?_, ?_⟩ <;> intro hc <;> subst hc
  · by_contra hlt
    push Not at hlt
    have h1 : 0 < X - q * U := by nlinarith
    rw [abs_of_pos h1] at h
    rcases le_or_gt 0 (X - (q + 1) * U) with h2 | h2
    · rw [abs_of_nonneg h2] at h; nlinarith
    · rw [abs_of_neg h2] at h; nlinarith
  · by_contra hlt
    push Not at hlt
    have h1 : X - q * U < 0 := by nlinarith
    rw [abs_of_neg h1] at h
    rcases le_or_gt 0 (X - (q - 1) * U) with h2 | h2
    · rw [abs_of_nonneg h2] at h; nlinarith
    · rw [abs_of_neg h2] at h; nlinarith

theorem half_strict {X U : ℚ} {q : ℚ} (h : |X - q * U| ≠ |X - (q + 1) * U|) : X ≠ (q + 1 / 2) * U := by
  intro he
  apply h
  rw [he, show (q + 1 / 2) * U - q * U = U / 2 by ring, show (q + 1 / 2) * U - (q + 1) * U = -(U / 2) by ring, abs_neg]

/-- The sign of a datum. -/
def sgn (n : Bool) : ℚ := if n then -1 else 1

theorem sgn_mul (n : Bool) : sgn n * sgn n = 1 := by cases n <;> simp [sgn]
theorem sgn_sgn (n : Bool) (x : ℚ) : sgn n * (sgn n * x) = x := by rw [← mul_assoc, sgn_mul, one_mul]
theorem abs_sgn (n : Bool) : |sgn n| = 1 := by cases n <;> simp [sgn]
theorem abs_sgn_sub (n : Bool) (X w : ℚ) : |sgn n * X - w| = |X - sgn n * w| := by
  have : sgn n * X - w = sgn n * (X - sgn n * w) := by
    have := sgn_mul n
    calc sgn n * X - w = sgn n * X - 1 * w := by ring
      _ = sgn n * X - (sgn n * sgn n) * w := by rw [this]
      _ = _ := by ring
  rw [this, abs_mul, abs_sgn, one_mul]

theorem round_rounded (F : Fmt) (hF : Fmt.Ok F) (n : Bool) (m : Nat) (e : Int) :
    Rounded F (sgn n * m * 2 ^ e) (round F n m e) := by
  have hp := hF.1
  have hmm := hF.2
  by_cases h : m = 0
  · subst h
    unfold round
    rw [if_pos rfl]
    have h1 : (1 : ℚ) ≤ 2 ^ (F.p + 1) - 1 := by
      have : (2 : ℚ) ^ 1 ≤ 2 ^ (F.p + 1) := pow_le_pow_right₀ (by norm_num) (by omega)
      linarith
    refine .near n 0 F.emin 0 (by simp [Fl.val]) ⟨by positivity, le_refl _, hmm, .inr rfl⟩ ?_ ?_ (fun _ _ _ _ _ _ => rfl) (by simp)
    · simp only [Nat.cast_zero, mul_zero, zero_mul, abs_zero]
      exact mul_pos (by linarith) (two_zpow_pos _)
    · intro y w _ _; simp
  rw [round_sig F n m e h]
  obtain ⟨q, E, hE, hs, hn⟩ := sig_spec F hp m e h
  obtain ⟨bE, bu, bl⟩ := sig_bounds F hF m e h E hE
  generalize hX : (m : ℚ) * 2 ^ e = X at *
  have hX0 : 0 < X := by
    rw [← hX]
    exact mul_pos (by exact_mod_cast Nat.pos_of_ne_zero h) (two_zpow_pos e)
  have hU := two_zpow_pos E
  have hxX : sgn n * m * 2 ^ e = sgn n * X := by rw [← hX]; ring
  rw [hxX]
  have habs : |sgn n * X| = X := by rw [abs_mul, abs_sgn, one_mul, abs_of_pos hX0]
  have hsign : (sgn n * X < 0 → n = true) ∧ (0 < sgn n * X → n = false) := by
    cases n <;> simp [sgn] <;> linarith
  have hdec : decide (sgn n * X < 0) = n := by
    cases n <;> simp [sgn] <;> linarith
  have up := (half_unit hU (hn (q + 1 : ℤ)).1).1 (by push_cast; ring)
  have lo := (half_unit hU (hn (q - 1 : ℤ)).1).2 (by push_cast; ring)
  have hpow : (2 : ℚ) ^ F.p = 2 * 2 ^ (F.p - 1) := by
    conv_lhs => rw [show F.p = F.p - 1 + 1 by omega]
    rw [pow_succ]; ring
  have hpow1 : (2 : ℚ) ≤ 2 ^ (F.p - 1) := by
    have : (2 : ℚ) ^ 1 ≤ 2 ^ (F.p - 1) := pow_le_pow_right₀ (by norm_num) (by omega)
    linarith
  have hthr : (2 ^ (F.p + 1) - 1) * (2 : ℚ) ^ (F.emax - 1) = (2 ^ F.p - 1 / 2) * 2 ^ F.emax := by
    have : (2 : ℚ) ^ F.emax = 2 ^ (F.emax - 1) * 2 := by
      conv_lhs => rw [show F.emax = F.emax - 1 + 1 by ring]
      rw [zpow_split, zpow_one]
    rw [this, pow_succ]; ring
  -- the significand has at most p bits
  have hq : q ≤ 2 ^ F.p := by
    by_contra hc
    push Not at hc
    have h1 : (2 : ℚ) ^ F.p + 1 ≤ q := by rw [← two_pow_nat]; exact_mod_cast hc
    nlinarith
  -- and p bits unless the unit is the least
  have hql : E = F.emin ∨ 2 ^ (F.p - 1) ≤ q := by
    rcases bl with b | b
    · exact .inl b
    · right
      by_contra hc
      push Not at hc
      have h1 : (q : ℚ) + 1 ≤ 2 ^ (F.p - 1) := by rw [← two_pow_nat]; exact_mod_cast hc
      nlinarith
  rw [hs]
  by_cases hov : F.emax < (if q = 2 ^ F.p then ((2 ^ (F.p - 1) : Nat), E + 1) else (q, E)).2
  · rw [if_pos hov]
    refine .over _ ?_ (by rw [hdec])
    rw [habs, hthr]
    by_cases hqp : q = 2 ^ F.p
    · rw [if_pos hqp] at hov
      dsimp only at hov
      have hEq : F.emax ≤ E := by omega
      rw [hqp, two_pow_nat] at lo
      refine le_trans ?_ lo
      exact mul_le_mul_of_nonneg_left (zpow_le hEq) (by linarith)
    · rw [if_neg hqp] at hov
      dsimp only at hov
      rcases bl with b | b
      · omega
      · refine le_trans ?_ b
        have h1 : (2 : ℚ) ^ (F.emax + 1) ≤ 2 ^ E := zpow_le (by omega)
        rw [zpow_split, zpow_one] at h1
        have h2 := two_zpow_pos F.emax
        nlinarith
  · rw [if_neg hov]
    have hval : (Fl.fin n (if q = 2 ^ F.p then ((2 ^ (F.p - 1) : Nat), E + 1) else (q, E)).1
        (if q = 2 ^ F.p then ((2 ^ (F.p - 1) : Nat), E + 1) else (q, E)).2).val = some (sgn n * (q * 2 ^ E)) := by
      by_cases hqp : q = 2 ^ F.p
      · rw [if_pos hqp]
        unfold Fl.val sgn
        dsimp only
        rw [hqp, two_pow_nat, two_pow_nat, zpow_split, zpow_one, hpow]
        congr 1; ring
      · rw [if_neg hqp]
        unfold Fl.val sgn
        congr 1; ring
    refine .near n _ _ (sgn n * (q * 2 ^ E)) hval ?_ ?_ ?_ ?_ hsign
    · by_cases hqp : q = 2 ^ F.p
      · rw [if_pos hqp] at hov ⊢
        refine ⟨?_, by dsimp only; omega, by dsimp only at hov ⊢; omega, .inl (le_refl _)⟩
        exact Nat.pow_lt_pow_right (by omega) (by omega)
      · rw [if_neg hqp] at hov ⊢
        refine ⟨by dsimp only; omega, bE, by dsimp only at hov ⊢; omega, ?_⟩
        rcases hql with b | b
        · exact .inr b
        · exact .inl b
    · rw [habs, hthr]
      by_cases hqp : q = 2 ^ F.p
      · rw [if_pos hqp] at hov
        dsimp only at hov
        have h1 : (2 : ℚ) ^ (E + 1) ≤ 2 ^ F.emax := zpow_le (by omega)
        rw [zpow_split, zpow_one] at h1
        rw [hqp, two_pow_nat] at up
        nlinarith
      · rw [if_neg hqp] at hov
        dsimp only at hov
        have h1 : (2 : ℚ) ^ E ≤ 2 ^ F.emax := zpow_le (by omega)
        have hq1 : q + 1 ≤ 2 ^ F.p := by omega
        have hq2 : (q : ℚ) + 1 ≤ 2 ^ F.p := by rw [← two_pow_nat]; exact_mod_cast hq1
        have h3 : X < (2 ^ F.p - 1 / 2) * 2 ^ E := by
          rcases lt_or_eq_of_le hq1 with hlt | heq
          · have hq3 : (q : ℚ) + 2 ≤ 2 ^ F.p := by rw [← two_pow_nat]; exact_mod_cast hlt
            nlinarith
          · have hq4 : (q : ℚ) + 1 = 2 ^ F.p := by rw [← two_pow_nat]; exact_mod_cast heq
            have hodd : q % 2 = 1 := by
              have : 2 ^ F.p = 2 * 2 ^ (F.p - 1) := by
                conv_lhs => rw [show F.p = F.p - 1 + 1 by omega]
                rw [pow_succ]; ring
              omega
            have hne : X ≠ ((q : ℚ) + 1 / 2) * 2 ^ E := by
              apply half_strict
              intro he
              have := (hn (q + 1 : ℤ)).2 (by push_cast; exact he)
              omega
            have := lt_of_le_of_ne up hne
            rw [← hq4]; linarith
        refine lt_of_lt_of_le h3 ?_
        exact mul_le_mul_of_nonneg_left h1 (by linarith)
    all_goals
      intro y w hy hw
      rw [abs_sgn_sub, abs_sgn_sub, sgn_sgn]
      cases y with
      | nan => simp [Fl.val] at hw
      | inf _ => simp [Fl.val] at hw
      | fin yn ym ye =>
        obtain ⟨y1, y2, y3, y4⟩ := hy
        have hw' : sgn n * w = sgn n * sgn yn * ym * 2 ^ ye := by
          simp only [Fl.val, Option.some.injEq] at hw
          rw [← hw]; unfold sgn; ring
        obtain ⟨z, hz⟩ : ∃ z : ℤ, sgn n * sgn yn * ym = z := by
          cases n <;> cases yn
          · exact ⟨ym, by simp [sgn]⟩
          · exact ⟨-ym, by simp [sgn]⟩
          · exact ⟨-ym, by simp [sgn]⟩
          · exact ⟨ym, by simp [sgn]⟩
        rw [hz] at hw'
        have hzabs : (z : ℚ) ≤ ym := by
          rw [← hz]; cases n <;> cases yn <;> simp [sgn] <;> linarith [Nat.cast_nonneg (α := ℚ) ym]
        by_cases hEy : E ≤ ye
        · have hcE : sgn n * w = (z * 2 ^ (ye - E).toNat : ℤ) * 2 ^ E := by
            rw [hw']; push_cast
            rw [mul_assoc, zpow_pow]; congr 2; omega
          rw [hcE]
          first
          | exact (hn _).1
          | intro hne he
            have h4 := (hn _).2 he
            have h5 : q % 2 = 0 := by
              rcases h4 with h4 | h4
              · exfalso
                apply hne
                have : sgn n * w = q * 2 ^ E := by rw [hcE, h4]; push_cast; rfl
                have h6 : sgn n * (sgn n * w) = sgn n * (q * 2 ^ E) := by rw [this]
                rw [sgn_sgn] at h6
                exact h6
              · exact h4
            by_cases hqp : q = 2 ^ F.p
            · rw [if_pos hqp]
              show 2 ^ (F.p - 1) % 2 = 0
              rw [show F.p - 1 = F.p - 2 + 1 by omega, pow_succ]; omega
            · rw [if_neg hqp]; exact h5
        · have hEm : (2 : ℚ) ^ (F.p - 1) * 2 ^ E ≤ X := by
            rcases bl with b | b
            · omega
            · exact b
          have hlt : sgn n * w < 2 ^ (F.p - 1) * 2 ^ E := by
            rw [hw']
            have h1 : (2 : ℚ) ^ (ye + 1) ≤ 2 ^ E := zpow_le (by omega)
            rw [zpow_split, zpow_one] at h1
            have h2 : (ym : ℚ) < 2 ^ F.p := by rw [← two_pow_nat]; exact_mod_cast y1
            have h3 := two_zpow_pos ye
            calc (z : ℚ) * 2 ^ ye ≤ ym * 2 ^ ye := mul_le_mul_of_nonneg_right hzabs h3.le
              _ < 2 ^ F.p * 2 ^ ye := mul_lt_mul_of_pos_right h2 h3
              _ = 2 ^ (F.p - 1) * (2 ^ ye * 2) := by rw [hpow]; ring
              _ ≤ _ := mul_le_mul_of_nonneg_left h1 (by positivity)
          have h5 := (hn (2 ^ (F.p - 1) : ℤ)).1
          push_cast at h5
          have h6 : |X - 2 ^ (F.p - 1) * 2 ^ E| < |X - sgn n * w| := by
            rw [abs_of_nonneg (by linarith), abs_of_pos (by linarith)]; linarith
          first
          | exact (lt_of_le_of_lt h5 h6).le
          | intro _ he
            exfalso; linarith

end Slimcc.FP
