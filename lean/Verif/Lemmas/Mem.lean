import Verif.Lemmas.Word
import Verif.Spec.Compiled
/-! Reading and writing memory. -/
set_option autoImplicit false
namespace Slimcc
open Slimcc.X86 Slimcc.Spec

abbrev Mem := Word → BitVec 8

theorem Spec.Disj.symm {a b : Word} {n k : Nat} (h : Disj a n b k) : Disj b k a n := fun c hc => h c ⟨hc.2, hc.1⟩

theorem Spec.Disj.mono {a b : Word} {n k n' k' : Nat} (h : Disj a n b k) (hn : n' ≤ n) (hk : k' ≤ k) : Disj a n' b k' :=
  fun c hc => h c ⟨Nat.lt_of_lt_of_le hc.1 hn, Nat.lt_of_lt_of_le hc.2 hk⟩

theorem inBlk_add (a : Word) (n i : Nat) (h : i < n) (hn : n ≤ 8) : InBlk a n (a + BitVec.ofNat 64 i) := by
  unfold InBlk
  rw [show a + BitVec.ofNat 64 i - a = BitVec.ofNat 64 i by
    rw [BitVec.add_comm, BitVec.add_sub_cancel]]
  rw [BitVec.toNat_ofNat, Nat.mod_eq_of_lt (by omega)]
  exact h

theorem rd_congr (m m' : Mem) (a : Word) (n : Nat) (hn : n ≤ 8) (h : ∀ b, InBlk a n b → m b = m' b) : rd m a n = rd m' a n := by
  induction n with
  | zero => rfl
  | succ n ih =>
    simp only [rd]
    rw [ih (by omega) fun b hb => h b (Nat.lt_succ_of_lt hb), h _ (inBlk_add a (n + 1) n (by omega) hn)]

theorem wr_other (m : Mem) (a : Word) (n : Nat) (v : Word) (b : Word) (h : ¬ InBlk a n b) : wr m a n v b = m b := by
  unfold wr; unfold InBlk at h; rw [if_neg h]

theorem rd_wr_disj (m : Mem) (a b : Word) (n k : Nat) (v : Word) (hk : k ≤ 8) (h : Disj a n b k) : rd (wr m a n v) b k = rd m b k :=
  rd_congr _ _ _ _ hk fun c hc => wr_other m a n v c fun hc' => h c ⟨hc', hc⟩

theorem rd_bits (m : Mem) (a : Word) (n i : Nat) (hn : n ≤ 8) :
    (rd m a n).getLsbD i = (decide (i < 8 * n) && (m (a + BitVec.ofNat 64 (i / 8))).getLsbD (i % 8)) := by
  induction n with
  | zero => simp [rd]
  | succ n ih =>
    simp only [rd, BitVec.getLsbD_or, ih (by omega), BitVec.getLsbD_shiftLeft, BitVec.getLsbD_setWidth]
    by_cases h1 : i < 8 * n
    · simp [h1, show i < 8 * (n + 1) by omega]
    · by_cases h2 : i < 8 * (n + 1)
      · have e : i / 8 = n := by omega
        have e2 : i - 8 * n = i % 8 := by omega
        simp [h1, h2, e, e2, show i < 64 by omega, show i % 8 < 64 by omega]
      · simp [h1, h2]
        intro _
        exact fun _ => BitVec.getLsbD_of_ge _ _ (by omega)

theorem rd_wr_same (m : Mem) (a : Word) (n : Nat) (v : Word) (hn : n ≤ 8) : rd (wr m a n v) a n = zx n v := by
  apply BitVec.eq_of_getLsbD_eq
  intro i hi
  rw [rd_bits _ _ _ _ hn]
  unfold zx
  simp only [BitVec.getLsbD_setWidth, hi, decide_true, Bool.true_and]
  by_cases h1 : i < 8 * n
  · simp only [h1, decide_true, Bool.true_and]
    have hb := inBlk_add a n (i / 8) (by omega) hn
    unfold wr
    unfold InBlk at hb
    rw [if_pos hb]
    rw [show a + BitVec.ofNat 64 (i / 8) - a = BitVec.ofNat 64 (i / 8) by
      rw [BitVec.add_comm, BitVec.add_sub_cancel]]
    rw [BitVec.toNat_ofNat, Nat.mod_eq_of_lt (by omega : i / 8 < 2 ^ 64)]
    simp only [BitVec.getLsbD_setWidth, BitVec.getLsbD_ushiftRight]
    rw [show 8 * (i / 8) + i % 8 = i by omega]
    simp [show i % 8 < 8 by omega]
  · simp [h1]

/-- A shorter read takes the low bytes. -/
theorem rd_prefix (m : Mem) (a : Word) (n k : Nat) (hn : n ≤ 8) (hk : k ≤ n) : rd m a k = zx k (rd m a n) := by
  apply BitVec.eq_of_getLsbD_eq
  intro i hi
  unfold zx
  simp only [BitVec.getLsbD_setWidth, rd_bits _ _ _ _ hn, rd_bits _ _ _ _ (Nat.le_trans hk hn), hi, decide_true, Bool.true_and]
  by_cases h1 : i < 8 * k
  · simp [h1, show i < 8 * n by omega]
  · simp [h1]

theorem zx_rd (m : Mem) (a : Word) (n : Nat) (hn : n ≤ 8) : zx n (rd m a n) = rd m a n := (rd_prefix m a n n hn (Nat.le_refl n)).symm

end Slimcc
