import Verif.Lemmas.Leaf
import Verif.Lemmas.MachArith
/-! Operators on registers, memory and immediates. -/
set_option autoImplicit false
namespace Slimcc
open Slimcc.Spec Slimcc.Spec.CTy Slimcc.Ty Slimcc.X86 Slimcc.Gen

/-- Two words agree in their low `sz` bytes. -/
def SameLow (sz : Nat) (x y : Word) : Prop := x.setWidth (8 * sz) = y.setWidth (8 * sz)

theorem SameLow.rfl' (sz : Nat) (x : Word) : SameLow sz x x := rfl
theorem SameLow.symm {sz : Nat} {x y : Word} (h : SameLow sz x y) : SameLow sz y x := Eq.symm h
theorem SameLow.trans {sz : Nat} {x y z : Word} (h : SameLow sz x y) (h' : SameLow sz y z) : SameLow sz x z := Eq.trans h h'
theorem sameLow_zx (sz : Nat) (x : Word) : SameLow sz (zx sz x) x := sw_zx _ _ _ (Nat.le_refl _)
theorem Low.same {sz : Nat} {v : Int} {x y : Word} (h : Low sz v y) (e : SameLow sz x y) : Low sz v x := h.of_sw e

theorem aluOp_same (op : Alu) (sz : Nat) (h8 : sz ≤ 8) (x y x' y' : Word) (hx : SameLow sz x x') (hy : SameLow sz y y') :
    SameLow sz (aluOp op x y) (aluOp op x' y') := by
  unfold SameLow at *
  cases op <;> simp only [aluOp]
  · rw [BitVec.setWidth_add _ _ (by omega), BitVec.setWidth_add _ _ (by omega), hx, hy]
  · rw [BitVec.sub_eq_add_neg, BitVec.sub_eq_add_neg, BitVec.setWidth_add _ _ (by omega), BitVec.setWidth_add _ _ (by omega),
      BitVec.setWidth_neg_of_le (by omega), BitVec.setWidth_neg_of_le (by omega), hx, hy]
  · rw [BitVec.setWidth_mul _ _ (by omega), BitVec.setWidth_mul _ _ (by omega), hx, hy]
  · rw [BitVec.setWidth_and, BitVec.setWidth_and, hx, hy]
  · rw [BitVec.setWidth_or, BitVec.setWidth_or, hx, hy]
  · rw [BitVec.setWidth_xor, BitVec.setWidth_xor, hx, hy]

/-- A two-operand operator at the size of its type or narrower. -/
theorem alu_low (k : ArOp) (op : Alu) (t : ITy) (sz : Nat) (a b v : Int) (x y : Word) (hs : 4 ≤ t.size) (hsz : sz ≤ t.size)
    (hk : aluOf k = some op) (h : arith (cty t) k a b = .ok v) (ha : Low sz a x) (hb : Low sz b y) : Low sz v (aluOp op x y) := by
  have h8 := (size_le t).1
  have := alu_arith k op t a b v (BitVec.ofInt 64 a) (BitVec.ofInt 64 b) hs hk h (Low.of_eq _ _ h8) (Low.of_eq _ _ h8)
  have := this.mono hsz h8
  refine this.same (aluOp_same op sz (by omega) _ _ _ _ ?_ ?_)
  · unfold SameLow; rw [ha, sw_ofInt _ _ (by omega)]
  · unfold SameLow; rw [hb, sw_ofInt _ _ (by omega)]

section
variable {E : Env} {P : List Line}

/-- An ALU instruction on %rax. -/
theorem alu_calc (op : Alu) (sz : Nat) (hsz : sz = 4 ∨ sz = 8) (src : Opd) (y : Word) (s : St) (hy : SameLow sz (X86.get E.sym s sz src) y) :
    Calc E [.alu op sz src (.reg .ax)] s fun s' => SameLow sz (s'.r .ax) (aluOp op (s.r .ax) y) := by
  refine calc_setR _ s .ax _ _ none (by simp only [exec, put', Option.map_some, St.noFlags]; rfl) scratch_ax ?_
  simp only [setR_same]
  rw [put_of_rop _ _ _ hsz]
  refine (sameLow_zx sz _).trans (aluOp_same op sz (by omega) _ _ _ _ ?_ hy)
  simp only [X86.get]
  exact sameLow_zx sz _

/-- Loading a constant into %rdx. -/
theorem mov_dx_calc (sz : Nat) (hsz : sz = 4 ∨ sz = 8) (v : Word) (s : St) :
    Calc E [.mov sz (.imm v) (.reg .dx)] s fun s' => SameLow sz (s'.r .dx) v ∧ s'.r .ax = s.r .ax := by
  refine calc_setR' _ s .dx _ _ (by simp only [exec, put']; rfl) scratch_dx ⟨?_, setR_other _ _ _ _ (by simp)⟩
  rw [setR_same, put_of_rop _ _ _ hsz]
  simp only [X86.get]
  exact (sameLow_zx sz _).trans (sameLow_zx sz _)

theorem immArith2_calc (op : Alu) (sz : Nat) (hsz : sz = 4 ∨ sz = 8) (v : Word) (s : St) :
    Calc E (immArith2 op sz .ax v) s fun s' => SameLow sz (s'.r .ax) (aluOp op (s.r .ax) v) := by
  unfold immArith2
  split
  · exact alu_calc op sz hsz _ v s (by simp only [X86.get]; exact sameLow_zx sz _)
  · refine calc_cons (mov_dx_calc sz hsz v s) fun s1 _ _ h => ?_
    have := alu_calc (E := E) op sz hsz (.reg .dx) v s1 (by simp only [X86.get]; exact (sameLow_zx sz _).trans h.1)
    rw [h.2] at this
    exact this

theorem un_calc (op : Un) (sz : Nat) (hsz : sz = 4 ∨ sz = 8) (s : St) :
    Calc E [.un op sz .ax] s fun s' => SameLow sz (s'.r .ax) (unOp op (s.r .ax)) := by
  refine calc_setR _ s .ax _ _ none (by simp only [exec, St.noFlags]; rfl) scratch_ax ?_
  simp only [setR_same]
  rw [put_of_rop _ _ _ hsz]
  exact sameLow_zx sz _

theorem xor_ax_calc (sz : Nat) (hsz : sz = 4 ∨ sz = 8) (s : St) :
    Calc E [.alu .xor sz (.reg .ax) (.reg .ax)] s fun s' => s'.r .ax = 0 :=
  calc_setR _ s .ax 0 _ none (xor_self sz .ax s hsz) scratch_ax (setR_same s .ax 0)

theorem log2In_spec (v : Word) : ∀ n i, log2In v n = some i → 1 ≤ i ∧ i ≤ n ∧ v = (1 : Word) <<< i := by
  intro n
  induction n with
  | zero => intro i h; cases h
  | succ n ih =>
    intro i h
    unfold log2In at h
    split at h
    · rename_i j hj
      injection h with h; subst h
      have := ih j hj
      exact ⟨this.1, by omega, this.2.2⟩
    · rw [if_neg (by omega)] at h
      split at h
      · rename_i e
        injection h with h; subst h
        exact ⟨by omega, Nat.le_refl _, e.symm⟩
      · cases h

theorem shl_calc (k : ShKind) (sz i : Nat) (hsz : sz = 4 ∨ sz = 8) (hi : i < 8 * sz) (s : St) :
    Calc E [.shft k sz (.imm i) .ax] s fun s' => SameLow sz (s'.r .ax) (shOp k sz (s.r .ax) i) := by
  refine calc_setR _ s .ax _ _ none (by simp only [exec, St.noFlags]; rfl) scratch_ax ?_
  simp only [setR_same]
  rw [put_of_rop _ _ _ hsz]
  refine (sameLow_zx sz _).trans ?_
  have : i % (if sz = 8 then 64 else 32) = i := by
    apply Nat.mod_eq_of_lt
    rcases hsz with rfl | rfl <;> simp <;> omega
  rw [this]
  exact SameLow.rfl' _ _

/-- The immediate shortcuts compute what the instruction with the constant as operand does. -/
theorem immArith_calc (k : ArOp) (op : Alu) (sz : Nat) (hsz : sz = 4 ∨ sz = 8) (v : Word) (s : St) (hk : aluOf k = some op) :
    Calc E (immArith k sz v) s fun s' => SameLow sz (s'.r .ax) (aluOp op (s.r .ax) v) := by
  have hsame : ∀ {l : List Ins} {f : Word → Word}, Calc E l s (fun s' => SameLow sz (s'.r .ax) (f (s.r .ax))) → f (s.r .ax) = aluOp op (s.r .ax) v →
      Calc E l s fun s' => SameLow sz (s'.r .ax) (aluOp op (s.r .ax) v) := fun h e => h.imp fun s' _ q => by rw [← e]; exact q
  have hnil : s.r .ax = aluOp op (s.r .ax) v → Calc E [] s fun s' => SameLow sz (s'.r .ax) (aluOp op (s.r .ax) v) :=
    fun e => calc_nil s _ (by rw [← e]; exact SameLow.rfl' _ _)
  have hzero : ∀ z, z = 4 ∨ z = 8 → aluOp op (s.r .ax) v = 0 → Calc E [.alu .xor z (.reg .ax) (.reg .ax)] s fun s' => SameLow sz (s'.r .ax) (aluOp op (s.r .ax) v) :=
    fun z hz e => (xor_ax_calc z hz s).imp fun s' _ q => by rw [q, e]; exact SameLow.rfl' _ _
  cases k <;> simp only [aluOf] at hk <;> first | (injection hk with hk; subst hk) | cases hk
  · -- add
    simp only [immArith, immAdd]
    split
    · rename_i h; exact hnil (by subst h; simp [aluOp])
    · split
      · rename_i h; exact hsame (f := unOp .inc) (un_calc .inc sz hsz s) (by subst h; rfl)
      · split
        · rename_i h
          refine hsame (f := unOp .dec) (un_calc .dec sz hsz s) ?_
          subst h
          simp only [aluOp, unOp, BitVec.sub_eq_add_neg]
        · exact immArith2_calc _ sz hsz v s
  · simp only [immArith, immSub]
    split
    · rename_i h; exact hnil (by subst h; simp [aluOp])
    · split
      · rename_i h; exact hsame (f := unOp .dec) (un_calc .dec sz hsz s) (by subst h; rfl)
      · split
        · rename_i h
          refine hsame (f := unOp .inc) (un_calc .inc sz hsz s) ?_
          subst h
          simp only [aluOp, unOp, BitVec.sub_eq_add_neg, BitVec.neg_neg]
        · exact immArith2_calc _ sz hsz v s
  · -- mul
    simp only [immArith]
    split
    · rename_i h; exact hzero 4 (Or.inl rfl) (by subst h; simp [aluOp])
    · split
      · rename_i h; exact hnil (by subst h; simp [aluOp])
      · split
        · rename_i h
          refine hsame (f := unOp .neg) (un_calc .neg sz hsz s) ?_
          subst h
          simp only [aluOp, unOp, BitVec.mul_neg]
          rw [show ((1 : Word)) = 1#64 from rfl, BitVec.mul_one]
        · split
          · rename_i i hi
            have hl : log2In v (sz * 8 - 1) = some i := by
              split at hi
              · exact hi
              · cases hi
            have := log2In_spec v _ _ hl
            refine hsame (f := fun x => shOp .shl sz x i) (shl_calc .shl sz i hsz (by omega) s) ?_
            rw [this.2.2]
            simp only [shOp, aluOp]
            rw [BitVec.shiftLeft_eq_mul_twoPow, BitVec.shiftLeft_eq_mul_twoPow]
            rw [show ((1 : Word)) = 1#64 from rfl, BitVec.one_mul]
          · exact immArith2_calc _ sz hsz v s
  · -- and
    simp only [immArith, immAnd]
    split
    · rename_i h; exact hzero sz hsz (by subst h; simp [aluOp])
    · split
      · rename_i h; exact hnil (by subst h; simp only [aluOp]; rw [show (-1 : Word) = BitVec.allOnes 64 from rfl, BitVec.and_allOnes])
      · exact immArith2_calc _ sz hsz v s
  · -- or
    simp only [immArith]
    split
    · rename_i h; exact hnil (by subst h; simp [aluOp])
    · split
      · rename_i h
        refine calc_setR' _ s .ax _ _ (by simp only [exec, put']; rfl) scratch_ax ?_
        rw [setR_same, put_of_rop _ _ _ hsz]
        simp only [X86.get]
        refine ((sameLow_zx sz _).trans (sameLow_zx sz _)).trans ?_
        subst h
        simp only [aluOp]
        rw [show (-1 : Word) = BitVec.allOnes 64 from rfl, BitVec.or_allOnes]
        exact SameLow.rfl' _ _
      · exact immArith2_calc _ sz hsz v s
  · -- xor
    simp only [immArith]
    split
    · rename_i h; exact hnil (by subst h; simp [aluOp])
    · split
      · rename_i h
        refine hsame (f := unOp .not) (un_calc .not sz hsz s) ?_
        subst h
        simp only [aluOp, unOp]
        rw [show (-1 : Word) = BitVec.allOnes 64 from rfl, BitVec.xor_allOnes]
      · exact immArith2_calc _ sz hsz v s

/-- `imm_cmp` compares with the constant. -/
theorem immCmp_calc (sz : Nat) (hsz : sz = 4 ∨ sz = 8) (v : Word) (s : St) :
    Calc E (immCmp sz .ax v) s fun s' => s'.f = some (cmpFlags sz (s.r .ax) v) := by
  have hz : ∀ (a b b' : Word), SameLow sz b b' → cmpFlags sz (zx sz a) b = cmpFlags sz a b' := by
    intro a b b' h
    unfold cmpFlags
    rw [zx_zx, sx_zx, zx_congr sz _ _ h, sx_congr sz _ _ h]
  unfold immCmp
  split
  · rename_i h
    refine calc_flags _ s _ _ (by simp only [exec]; rfl) ?_
    simp only [X86.get, BitVec.and_self]
    rw [test_cmp, h, hz _ _ _ (SameLow.rfl' _ _)]
  · split
    · refine calc_flags _ s _ _ (by simp only [exec]; rfl) ?_
      simp only [X86.get]
      rw [hz _ _ _ (sameLow_zx _ _)]
    · refine calc_cons (mov_dx_calc sz hsz v s) fun s1 _ _ h => ?_
      refine calc_flags _ s1 _ _ (by simp only [exec]; rfl) ?_
      simp only [X86.get]
      rw [hz _ _ _ ((sameLow_zx _ _).trans h.1), h.2]

end
end Slimcc
