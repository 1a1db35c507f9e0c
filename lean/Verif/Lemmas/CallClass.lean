/-
`has_flonum` tells the class of an eightbyte.
-/
import Verif.Model.CallConv
import Verif.Spec.SysV
set_option autoImplicit false

namespace Slimcc.CCL
open Slimcc.CC Slimcc.SysV

/-- Part of the scalar is in `[lo, hi)`. -/
def Ov (lo hi : Nat) (l : Nat × SK) : Prop := l.1 < hi ∧ lo < l.1 + l.2.size

def Flo (l : Nat × SK) : Prop := l.2 = .float ∨ l.2 = .double

mutual
theorem leaves_within : ∀ (t : CTy) (off : Nat), WF t → ∀ l ∈ leaves t off,
    off ≤ l.1 ∧ l.1 + l.2.size ≤ off + t.size
  | .scalar k a, off, _, l, hl => by
    rw [leaves, List.mem_singleton] at hl
    subst hl
    simp [CTy.size]
  | .arr b n, off, h, l, hl => by
    rw [WF] at h
    rw [leaves, List.mem_flatMap] at hl
    obtain ⟨i, hi, hl⟩ := hl
    have hi := List.mem_range.mp hi
    have := leaves_within b _ h l hl
    have hmul : b.size * (i + 1) ≤ b.size * n := Nat.mul_le_mul_left _ hi
    rw [Nat.mul_add, Nat.mul_one] at hmul
    simp only [CTy.size]
    omega
  | .agg u s a ms, off, h, l, hl => by
    rw [WF] at h
    rw [leaves] at hl
    have := leavesM_within ms off 0 s h l hl
    simp only [CTy.size]
    omega
theorem leavesM_within : ∀ (ms : Mems) (off prev s : Nat), WFm ms prev s →
    ∀ l ∈ leavesM ms off, off + prev ≤ l.1 ∧ l.1 + l.2.size ≤ off + s
  | .nil, off, prev, s, _, l, hl => by
    rw [leavesM] at hl
    cases hl
  | .cons o t ms, off, prev, s, h, l, hl => by
    rw [WFm] at h
    obtain ⟨h1, h2, h3, h4⟩ := h
    rw [leavesM] at hl
    rcases List.mem_append.mp hl with hl | hl
    · have := leaves_within t _ h3 l hl
      omega
    · have := leavesM_within ms off o s h4 l hl
      omega
end

theorem flonumArr_iff {lo hi sz off : Nat} {f : Nat → Bool} {L : Nat → List (Nat × SK)}
    (hin : ∀ j, ∀ l ∈ L j, off + sz * j ≤ l.1 ∧ l.1 + l.2.size ≤ off + sz * j + sz)
    (hf : ∀ j, ¬ off + sz * j + sz ≤ lo → ¬ hi ≤ off + sz * j →
      (f (off + sz * j) = true ↔ ∀ l ∈ L j, Ov lo hi l → Flo l)) (n : Nat) :
    ∀ i, flonumArr lo hi sz off f n i = true ↔
      ∀ j, i ≤ j → j < i + n → ∀ l ∈ L j, Ov lo hi l → Flo l := by
  induction n with
  | zero =>
    intro i
    simp only [flonumArr, true_iff]
    intro j h1 h2
    omega
  | succ n ih =>
    intro i
    have split_ : (∀ j, i ≤ j → j < i + (n + 1) → ∀ l ∈ L j, Ov lo hi l → Flo l) ↔
        (∀ l ∈ L i, Ov lo hi l → Flo l) ∧
        ∀ j, i + 1 ≤ j → j < (i + 1) + n → ∀ l ∈ L j, Ov lo hi l → Flo l := by
      constructor
      · intro h
        exact ⟨h i (Nat.le_refl i) (by omega), fun j h1 h2 => h j (by omega) (by omega)⟩
      · rintro ⟨h1, h2⟩ j h3 h4
        by_cases e : j = i
        · rw [e]; exact h1
        · exact h2 j (by omega) (by omega)
    rw [split_, flonumArr]
    split
    · rename_i hlo
      rw [ih (i + 1)]
      constructor
      · intro h
        refine ⟨fun l hl ho => ?_, h⟩
        have := hin i l hl
        have := ho.2
        omega
      · exact fun h => h.2
    · rename_i hlo
      split
      · rename_i hhi
        simp only [true_iff]
        have late : ∀ j, i ≤ j → ∀ l ∈ L j, Ov lo hi l → Flo l := by
          intro j hj l hl ho
          have := hin j l hl
          have hm : sz * i ≤ sz * j := Nat.mul_le_mul_left _ hj
          have := ho.1
          omega
        exact ⟨late i (Nat.le_refl i), fun j h1 _ => late j (by omega)⟩
      · rename_i hhi
        have hfi := hf i hlo hhi
        split
        · rename_i hfl
          rw [ih (i + 1)]
          constructor
          · exact fun h => ⟨hfi.mp hfl, h⟩
          · exact fun h => h.2
        · rename_i hfl
          simp only [Bool.false_eq_true, false_iff]
          exact fun h => hfl (hfi.mpr h.1)

mutual
theorem flonum_iff (lo hi : Nat) : ∀ (t : CTy) (off : Nat), WF t →
    (∀ k a, t = .scalar k a → off < hi ∧ lo < off + k.size) →
    (hasFlonum lo hi t off = true ↔ ∀ l ∈ leaves t off, Ov lo hi l → Flo l)
  | .scalar k a, off, _, hs => by
    have := hs k a rfl
    rw [hasFlonum, leaves]
    simp only [List.mem_singleton, forall_eq, Ov, Flo, Bool.or_eq_true, beq_iff_eq]
    constructor
    · intro h _; exact h
    · intro h; exact h this
  | .arr b n, off, h, _ => by
    rw [WF] at h
    rw [hasFlonum, leaves, flonumArr_iff (L := fun j => leaves b (off + b.size * j))
      (fun j l hl => leaves_within b _ h l hl)
      (fun j h1 h2 => flonum_iff lo hi b (off + b.size * j) h (by
        rintro k a rfl
        simp only [CTy.size] at h1 h2 ⊢
        omega)) n 0]
    simp only [List.mem_flatMap, List.mem_range, Nat.zero_add]
    constructor
    · rintro h l ⟨j, h1, h2⟩ ho
      exact h j (Nat.zero_le j) h1 l h2 ho
    · intro h j _ h1 l h2 ho
      exact h l ⟨j, h1, h2⟩ ho
  | .agg u s a ms, off, h, _ => by
    rw [WF] at h
    rw [hasFlonum, leaves]
    exact flonumMems_iff lo hi ms off 0 s h
theorem flonumMems_iff (lo hi : Nat) : ∀ (ms : Mems) (off prev s : Nat), WFm ms prev s →
    (flonumMems lo hi ms off = true ↔ ∀ l ∈ leavesM ms off, Ov lo hi l → Flo l)
  | .nil, off, prev, s, _ => by simp [flonumMems, leavesM]
  | .cons o t ms, off, prev, s, h => by
    rw [WFm] at h
    obtain ⟨h1, h2, h3, h4⟩ := h
    have ih := flonumMems_iff lo hi ms off o s h4
    rw [flonumMems, leavesM]
    simp only [List.mem_append]
    split
    · rename_i hlo
      rw [ih]
      constructor
      · rintro h l (hl | hl) ho
        · have := leaves_within t _ h3 l hl
          have := ho.2
          omega
        · exact h l hl ho
      · exact fun h l hl => h l (.inr hl)
    · rename_i hlo
      split
      · rename_i hhi
        simp only [true_iff]
        rintro l (hl | hl) ho
        · have := leaves_within t _ h3 l hl
          have := ho.1
          omega
        · have := leavesM_within ms off o s h4 l hl
          have := ho.1
          omega
      · rename_i hhi
        have hft := flonum_iff lo hi t (off + o) h3 (by
          rintro k a rfl
          simp only [CTy.size] at hlo
          omega)
        split
        · rename_i hfl
          rw [ih]
          constructor
          · rintro h l (hl | hl) ho
            · exact hft.mp hfl l hl ho
            · exact h l hl ho
          · exact fun h l hl => h l (.inr hl)
        · rename_i hfl
          simp only [Bool.false_eq_true, false_iff]
          exact fun h => hfl (hft.mpr (fun l hl => h l (.inl hl)))
end

theorem inEightbyte_iff (e : Nat) (l : Nat × SK) :
    inEightbyte e l = true ↔ Ov (8 * e) (8 * e + 8) l := by
  simp [inEightbyte, Ov]

theorem mem_classes {t : CTy} {e : Nat} {c : Class} :
    c ∈ ((leaves t 0).filter (inEightbyte e)).map (fun l => scalarClass l.2) ↔
      ∃ l ∈ leaves t 0, Ov (8 * e) (8 * e + 8) l ∧ scalarClass l.2 = c := by
  simp only [List.mem_map, List.mem_filter, inEightbyte_iff]
  constructor
  · rintro ⟨l, ⟨h1, h2⟩, h3⟩; exact ⟨l, h1, h2, h3⟩
  · rintro ⟨l, h1, h2, h3⟩; exact ⟨l, ⟨h1, h2⟩, h3⟩

/-- Without `long double` and padding eightbytes, `has_flonum` tells SSE from
INTEGER. -/
theorem class_flonum {t : CTy} {e : Nat} (hw : WF t)
    (hs : ∀ k a, t = .scalar k a → 0 < 8 * e + 8 ∧ 8 * e < 0 + k.size)
    (hl : ∀ l ∈ leaves t 0, l.2 ≠ .ldouble) (hn : classOf t e ≠ .none) :
    (hasFlonum (8 * e) (8 * e + 8) t 0 = true → classOf t e = .sse) ∧
    (hasFlonum (8 * e) (8 * e + 8) t 0 = false → classOf t e = .integer) := by
  have iff_ := flonum_iff (8 * e) (8 * e + 8) t 0 hw (by
    intro k a h
    have := hs k a h
    omega)
  have nox : ¬ Class.x87 ∈ ((leaves t 0).filter (inEightbyte e)).map (fun l => scalarClass l.2) := by
    rw [mem_classes]
    rintro ⟨l, h1, -, h3⟩
    have := hl l h1
    cases hk : l.2 <;> rw [hk] at h3 this <;> simp_all [scalarClass]
  constructor
  · intro h
    have h := iff_.mp h
    have noi : ¬ Class.integer ∈ ((leaves t 0).filter (inEightbyte e)).map
        (fun l => scalarClass l.2) := by
      rw [mem_classes]
      rintro ⟨l, h1, h2, h3⟩
      rcases h l h1 h2 with e | e <;> rw [e] at h3 <;> cases h3
    unfold classOf at hn ⊢
    simp only at hn ⊢
    rw [if_neg noi, if_neg nox] at hn ⊢
    split at hn
    · rename_i hs; rw [if_pos hs]
    · exact absurd rfl hn
  · intro h
    have : ∃ l ∈ leaves t 0, Ov (8 * e) (8 * e + 8) l ∧ scalarClass l.2 = .integer := by
      refine Classical.byContradiction fun hne => ?_
      have : hasFlonum (8 * e) (8 * e + 8) t 0 = true := by
        rw [iff_]
        intro l h1 h2
        refine Classical.byContradiction fun hf => hne ⟨l, h1, h2, ?_⟩
        have := hl l h1
        unfold Flo at hf
        cases hk : l.2 <;> rw [hk] at hf this <;> simp_all [scalarClass]
      rw [h] at this
      cases this
    unfold classOf
    simp only
    rw [if_pos (mem_classes.mpr this)]

end Slimcc.CCL
