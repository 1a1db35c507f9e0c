import Verif.Model.Unicode
import Verif.Spec.Unicode
set_option autoImplicit false
namespace Slimcc.Unicode
open Slimcc

theorem or_add (k a b : Nat) (h : b < 2 ^ k) : (a * 2 ^ k) ||| b = a * 2 ^ k + b := by
  rw [Nat.mul_comm, ← Nat.two_pow_add_eq_or_of_lt h]

theorem mask6 (c : Nat) : c &&& MASK 6 = c % 64 := by
  have : MASK 6 = 2 ^ 6 - 1 := by decide
  rw [this, Nat.and_two_pow_sub_one_eq_mod]

theorem or80 (x : Nat) (h : x < 64) : (MASK2 1 7 ||| x) % 256 = 0x80 + x := by
  have e : MASK2 1 7 = 1 * 2 ^ 7 := by decide
  rw [e, or_add 7 1 x (by omega)]; omega

theorem encode_eq_utf8 (c : Nat) (h : c < 2 ^ 21) : encodeUtf8 c = Spec.utf8 c := by
  unfold encodeUtf8 Spec.utf8
  simp only [mask6, Nat.shiftRight_eq_div_pow]
  by_cases h1 : c ≤ 0x7F
  · rw [if_pos h1, if_pos (show c < 128 by omega)]; congr 1; omega
  · rw [if_neg h1, if_neg (show ¬ c < 128 by omega)]
    by_cases h2 : c ≤ 0x7FF
    · rw [if_pos h2, if_pos (show c < 2048 by omega)]
      have e : MASK2 2 6 = 3 * 2 ^ 6 := by decide
      rw [e, or80 _ (by omega), or_add 6 3 _ (by omega)]
      congr 1; omega
    · rw [if_neg h2, if_neg (show ¬ c < 2048 by omega)]
      by_cases h3 : c ≤ 0xFFFF
      · rw [if_pos h3, if_pos (show c < 65536 by omega)]
        have e : MASK2 3 5 = 7 * 2 ^ 5 := by decide
        rw [e, or80 _ (by omega), or80 _ (by omega), or_add 5 7 _ (by omega)]
        congr 1; omega
      · rw [if_neg h3, if_neg (show ¬ c < 65536 by omega)]
        have e : MASK2 4 4 = 15 * 2 ^ 4 := by decide
        rw [e, or80 _ (by omega), or80 _ (by omega), or80 _ (by omega), or_add 4 15 _ (by omega)]
        congr 1; omega

theorem cont_step (n c b : Nat) (p : List Nat) (hb1 : 0x80 ≤ b) (hb2 : b < 0xC0)
    (hc : c < 2 ^ 26) :
    decodeCont (n + 1) c (b :: p) = decodeCont n (c * 64 + (b - 0x80)) p := by
  have e : MASK2 1 1 = 2 := by decide
  have h1 : b >>> 6 = 2 := by rw [Nat.shiftRight_eq_div_pow]; omega
  have h2 : ((c <<< 6) % 2 ^ 32) ||| (b &&& MASK 6) = c * 64 + (b - 0x80) := by
    rw [mask6, Nat.shiftLeft_eq]
    have h3 : c * 2 ^ 6 % 2 ^ 32 = c * 2 ^ 6 := Nat.mod_eq_of_lt (by omega)
    rw [h3, or_add 6 c _ (by omega)]; omega
  simp only [decodeCont]
  rw [if_neg (by rw [e, h1]; simp), h2]

theorem decode_utf8_spec (c : Nat) (rest : List Nat) (h : c < 2 ^ 21) :
    decodeUtf8 (Spec.utf8 c ++ rest) = .ok (c, rest) := by
  have m4 : MASK2 4 4 = 240 := by decide
  have m3 : MASK2 3 5 = 224 := by decide
  have m2 : MASK2 2 6 = 192 := by decide
  have k3 : ∀ x, x &&& MASK 3 = x % 8 := by
    intro x; have : MASK 3 = 2 ^ 3 - 1 := by decide
    rw [this, Nat.and_two_pow_sub_one_eq_mod]
  have k4 : ∀ x, x &&& MASK 4 = x % 16 := by
    intro x; have : MASK 4 = 2 ^ 4 - 1 := by decide
    rw [this, Nat.and_two_pow_sub_one_eq_mod]
  have k5 : ∀ x, x &&& MASK 5 = x % 32 := by
    intro x; have : MASK 5 = 2 ^ 5 - 1 := by decide
    rw [this, Nat.and_two_pow_sub_one_eq_mod]
  unfold Spec.utf8
  split
  · simp only [List.cons_append, List.nil_append, decodeUtf8]
    rw [if_pos (by omega)]
  · split
    · simp only [List.cons_append, List.nil_append, decodeUtf8]
      rw [if_neg (by omega), if_neg (by omega), if_neg (by omega), if_pos (by omega), k5,
        cont_step _ _ _ _ (by omega) (by omega) (by omega)]
      simp only [decodeCont]
      simp only [Outcome.ok.injEq, Prod.mk.injEq, and_true]; omega
    · split
      · simp only [List.cons_append, List.nil_append, decodeUtf8]
        rw [if_neg (by omega), if_neg (by omega), if_pos (by omega), k4,
          cont_step _ _ _ _ (by omega) (by omega) (by omega),
          cont_step _ _ _ _ (by omega) (by omega) (by omega)]
        simp only [decodeCont]
        simp only [Outcome.ok.injEq, Prod.mk.injEq, and_true]; omega
      · simp only [List.cons_append, List.nil_append, decodeUtf8]
        rw [if_neg (by omega), if_pos (by omega), k3,
          cont_step _ _ _ _ (by omega) (by omega) (by omega),
          cont_step _ _ _ _ (by omega) (by omega) (by omega),
          cont_step _ _ _ _ (by omega) (by omega) (by omega)]
        simp only [decodeCont]
        simp only [Outcome.ok.injEq, Prod.mk.injEq, and_true]; omega

/-- A table as the code needs it: proper intervals in strictly increasing order, compared
against the previous upper end. -/
def tableOk : Nat → List (Nat × Nat) → Bool
  | _, [] => true
  | lo, (a, b) :: rs => decide (lo ≤ a) && decide (a ≤ b) && tableOk (b + 1) rs

theorem tableOk_ge : ∀ (t : List (Nat × Nat)) (lo : Nat), tableOk lo t = true →
    ∀ r ∈ t, lo ≤ r.1
  | [], _, _, r, hr => by simp at hr
  | (a, b) :: rs, lo, h, r, hr => by
    simp only [tableOk, Bool.and_eq_true, decide_eq_true_eq] at h
    simp only [List.mem_cons] at hr
    rcases hr with rfl | hr
    · exact h.1.1
    · have := tableOk_ge rs (b + 1) h.2 r hr; omega

theorem inRange_iff : ∀ (t : List (Nat × Nat)) (lo c : Nat), tableOk lo t = true →
    (inRange c t = true ↔ Spec.InIntervals t c)
  | [], _, c, _ => by simp [inRange, Spec.InIntervals]
  | (a, b) :: rs, lo, c, h => by
    have hge := tableOk_ge rs (b + 1) (by
      simp only [tableOk, Bool.and_eq_true] at h; exact h.2)
    simp only [tableOk, Bool.and_eq_true, decide_eq_true_eq] at h
    have ih := inRange_iff rs (b + 1) c h.2
    unfold Spec.InIntervals at *
    simp only [inRange]
    by_cases h1 : c > b
    · rw [if_pos h1, ih]
      constructor
      · rintro ⟨r, hr, h2⟩; exact ⟨r, by simp [hr], h2⟩
      · rintro ⟨r, hr, h2⟩
        simp only [List.mem_cons] at hr
        rcases hr with rfl | hr
        · simp only at h2; omega
        · exact ⟨r, hr, h2⟩
    · rw [if_neg h1]
      by_cases h3 : a ≤ c
      · rw [if_pos h3]; simp only [true_iff]; exact ⟨(a, b), by simp, h3, by simp only; omega⟩
      · rw [if_neg h3]; simp only [Bool.false_eq_true, false_iff]
        rintro ⟨r, hr, h4, h5⟩
        simp only [List.mem_cons] at hr
        rcases hr with rfl | hr
        · exact h3 h4
        · have := hge r hr; omega

end Slimcc.Unicode
