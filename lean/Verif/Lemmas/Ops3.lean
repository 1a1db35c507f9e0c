import Verif.Lemmas.Ops2
/-! Shifts and divisions by constants, instructions with a constant and a memory operand. -/
set_option autoImplicit false
namespace Slimcc
open Slimcc.Spec Slimcc.Spec.CTy Slimcc.Ty Slimcc.X86 Slimcc.Gen

theorem range64 (t : ITy) (b : Int) (hw : t.wf = true) (hb : InRange (cty t) b) :
    (t.uns = true → 0 ≤ b ∧ b < 18446744073709551616) ∧ (t.uns = false → -9223372036854775808 ≤ b ∧ b < 9223372036854775808) :=
  ⟨fun h => range_uns t b hw h hb, fun h => range_sgn t b hw h hb⟩

theorem range_u32 (t : ITy) (b : Int) (hw : t.wf = true) (hs : t.size = 4) (hu : t.uns = true) (hb : InRange (cty t) b) :
    0 ≤ b ∧ b < 4294967296 := by
  have key : ∀ t ∈ allTys, t.uns = true → t.size = 4 → 0 ≤ (cty t).minVal ∧ (cty t).maxVal < 4294967296 := by decide
  have := key t (mem_allTys t hw) hu hs
  unfold InRange at hb; omega

/-- A constant equal to a small word. -/
theorem ofInt_eq_one (t : ITy) (b : Int) (hw : t.wf = true) (hb : InRange (cty t) b) (h : BitVec.ofInt 64 b = 1) : b = 1 := by
  have e := congrArg BitVec.toNat h
  have e1 := toNat_ofInt64 b
  rw [e] at e1
  have hr := range64 t b hw hb
  have : ((1 : Word).toNat : Int) = 1 := rfl
  cases hu : t.uns
  · have := hr.2 hu; omega
  · have := hr.1 hu; omega

theorem ofInt_eq_neg (t : ITy) (b : Int) (hw : t.wf = true) (hb : InRange (cty t) b) (h : BitVec.ofInt 64 b = -1) :
    if t.uns then b = 18446744073709551615 else b = -1 := by
  have e := congrArg BitVec.toNat h
  have e1 := toNat_ofInt64 b
  rw [e] at e1
  have hr := range64 t b hw hb
  have : ((-1 : Word).toNat : Int) = 18446744073709551615 := rfl
  cases hu : t.uns
  · have := hr.2 hu; rw [if_neg (by simp)]; omega
  · have := hr.1 hu; rw [if_pos rfl]; omega

theorem isPow2_spec (v : Word) (h : isPow2 v = true) (h0 : v ≠ 0) : ∃ k, k < 64 ∧ v.toNat = 2 ^ k ∧ (v - 1).toNat = 2 ^ k - 1 := by
  have hv : v.toNat ≠ 0 := fun e => h0 (BitVec.eq_of_toNat_eq e)
  have hs : (v - 1).toNat = v.toNat - 1 := by
    have h64 := v.isLt
    rw [BitVec.toNat_sub]
    have : (1 : Word).toNat = 1 := rfl
    rw [this]
    omega
  have h1 : v.toNat &&& (v.toNat - 1) = 0 := by
    unfold isPow2 at h
    have := congrArg BitVec.toNat (eq_of_beq h)
    rw [BitVec.toNat_and, hs] at this
    exact this
  obtain ⟨k, hk⟩ := (Nat.and_sub_one_eq_zero_iff_isPowerOfTwo hv).1 h1
  refine ⟨k, ?_, hk, by rw [hs, hk]⟩
  have h64 := v.isLt
  rw [hk] at h64
  exact (Nat.pow_lt_pow_iff_right (by omega)).1 h64

section
variable {E : Env} {P : List Line}

/-- An unsigned remainder by a power of two keeps low bits. -/
theorem mod_mask (t : ITy) (a b : Int) (x : Word) (k : Nat) (hw : t.wf = true) (hu : t.uns = true) (ha : InRange (cty t) a)
    (hx : Low t.size a x) (hb : b = 2 ^ k) (msk : Word) (hm : msk.toNat = 2 ^ k - 1) : Low t.size (a.tmod b) (x &&& msk) := by
  have h8 := (size_le t).1
  have hv := zx_val t a x hw ha hx hu
  have hn := range_uns t a hw hu ha
  have hc : SameLow t.size (x &&& msk) (zx t.size x &&& msk) :=
    aluOp_same .and t.size h8 _ _ _ _ (sameLow_zx _ _).symm (SameLow.rfl' _ _)
  refine Low.same ?_ hc
  have : zx t.size x &&& msk = BitVec.ofInt 64 (a.tmod b) := by
    apply BitVec.eq_of_toNat_eq
    have e := toNat_ofInt64 (a.tmod b)
    rw [BitVec.toNat_and, hm, Nat.and_two_pow_sub_one_eq_mod]
    have ht : a.tmod b = a % b := Int.tmod_eq_emod_of_nonneg hn.1
    have : ((zx t.size x).toNat % 2 ^ k : Int) = a % b := by
      rw [hv, hb]
    have hlt : a % b < 18446744073709551616 ∧ 0 ≤ a % b := by
      have hp : (0 : Int) < b := by rw [hb]; exact Int.pow_pos (by omega)
      have := Int.emod_nonneg a (by omega : b ≠ 0)
      have h2 : a % b ≤ a := by
        have h3 := Int.emod_add_mul_ediv a b
        have h4 := Int.mul_nonneg (Int.le_of_lt hp) (Int.ediv_nonneg hn.1 (Int.le_of_lt hp))
        omega
      omega
    rw [ht] at e
    have hcast : (((zx t.size x).toNat % 2 ^ k : Nat) : Int) = a % b := by
      rw [← this]; push_cast; rfl
    rw [Int.emod_eq_of_lt hlt.2 hlt.1] at e
    rw [ht]
    exact Int.ofNat_inj.1 (hcast.trans e.symm)
  rw [this]
  exact Low.of_eq _ _ h8

theorem and4_calc (sz : Nat) (hsz : sz = 4 ∨ sz = 8) (msk : Word) (h : msk.toNat ≤ 0x7fffffff) (s : St) :
    Calc E [.alu .and 4 (.imm msk) (.reg .ax)] s fun s' => SameLow sz (s'.r .ax) (s.r .ax &&& msk) := by
  refine calc_setR _ s .ax _ _ none (by simp only [exec, put', Option.map_some, St.noFlags]; rfl) scratch_ax ?_
  simp only [setR_same]
  rw [put_of_rop _ _ _ (Or.inl rfl)]
  simp only [X86.get, aluOp]
  have : zx 4 (zx 4 (s.r .ax) &&& zx 4 msk) = s.r .ax &&& msk := by
    apply BitVec.eq_of_toNat_eq
    rw [zx_toNat _ _ (by omega), BitVec.toNat_and, BitVec.toNat_and, zx_toNat _ _ (by omega), zx_toNat _ _ (by omega)]
    have h1 : msk.toNat % 2 ^ (8 * 4) = msk.toNat := Nat.mod_eq_of_lt (by omega)
    rw [h1]
    have h2 : (s.r .ax).toNat % 2 ^ (8 * 4) &&& msk.toNat = (s.r .ax).toNat &&& msk.toNat := by
      have h3 : msk.toNat &&& (2 ^ 32 - 1) = msk.toNat := by rw [Nat.and_two_pow_sub_one_eq_mod]; exact h1
      have h4 : (s.r .ax).toNat % 2 ^ (8 * 4) = (s.r .ax).toNat &&& (2 ^ 32 - 1) := by rw [Nat.and_two_pow_sub_one_eq_mod]
      rw [h4, Nat.and_assoc, Nat.and_comm (2 ^ 32 - 1), h3]
    rw [h2]
    apply Nat.mod_eq_of_lt
    have := @Nat.and_le_right (s.r .ax).toNat msk.toNat
    omega
  rw [this]
  exact SameLow.rfl' _ _

/-- Division and remainder by a constant without a division instruction. -/
theorem divmod_calc (isMod : Bool) (t : ITy) (a b : Int) (l : List Ins) (s : St) (hw : t.wf = true) (hs : 4 ≤ t.size)
    (ha : InRange (cty t) a) (hb : InRange (cty t) b) (hx : Low t.size a (s.r .ax))
    (h : divmodOpt isMod t (BitVec.ofInt 64 b) = some l) :
    Calc E l s fun s' => Low t.size (if isMod then a.tmod b else a.tdiv b) (s'.r .ax) := by
  have hsz : t.size = 4 ∨ t.size = 8 := by rcases big_cases t hw hs with h | h <;> simp [h.1]
  have h8 := (size_le t).1
  have zero : ∀ (z : Int), z = 0 → Calc E [.alu .xor 4 (.reg .ax) (.reg .ax)] s fun s' => Low t.size z (s'.r .ax) := by
    intro z hz
    refine (xor_ax_calc 4 (Or.inl rfl) s).imp fun s' _ q => ?_
    rw [q, hz]; exact Low.of_eq _ _ h8
  have hflag : ∀ x, Low t.size a x → ∀ y, Low t.size b y → ((cmpFlags t.size x y).eq = true ↔ a = b) := by
    intro x hx y hy
    have := cmp_flags .eq t a b x y hw ha hb hx hy
    simp only [cmpCC, CC.holds] at this
    rw [this]
    simp only [cmpVal, truth]
    by_cases e : a = b <;> simp [e]
  unfold divmodOpt at h
  dsimp only at h
  split at h
  · rename_i hv
    have := ofInt_eq_one t b hw hb hv
    subst this
    injection h with h; subst h
    cases isMod
    · exact calc_nil s _ (by rw [if_neg (by simp), Int.tdiv_one]; exact hx)
    · exact zero _ (by rw [if_pos rfl, Int.tmod_one])
  · split at h
    · rename_i hv
      have hbv := ofInt_eq_neg t b hw hb hv
      cases hu : t.uns with
      | false =>
        rw [hu] at h hbv
        simp only [Bool.not_false, if_true, Bool.false_eq_true, if_false] at h hbv
        subst hbv
        injection h with h; subst h
        cases isMod
        · refine (un_calc .neg t.size hsz s).imp fun s' _ q => ?_
          rw [if_neg (by simp)]
          have : a.tdiv (-1) = -a := by rw [Int.tdiv_neg, Int.tdiv_one]
          rw [this]
          exact (low_neg h8 hx).same q
        · exact zero _ (by rw [if_pos rfl, Int.tmod_neg, Int.tmod_one])
      | true =>
        rw [hu] at h hbv
        simp only [Bool.not_true, Bool.false_eq_true, if_false, if_true] at h hbv
        have hn := range_uns t a hw hu ha
        have hs8 : t.size = 8 := by
          rcases hsz with h4 | h8
          · have := range_u32 t b hw h4 hu hb; omega
          · exact h8
        have hcmp : Calc E [.cmp t.size (.imm (-1)) (.reg .ax)] s fun s' => (∃ f, s'.f = some f ∧ (f.eq = true ↔ a = b)) ∧ s'.r = s.r := by
          refine calc_flags _ s _ _ (by simp only [exec]; rfl) ⟨⟨_, rfl, hflag _ ?_ _ ?_⟩, rfl⟩
          · simp only [X86.get]; exact hx.zx
          · simp only [X86.get]; rw [← hv]; exact (Low.of_eq _ _ h8).zx
        cases isMod with
        | false =>
          simp only [Bool.not_false, if_true] at h
          injection h with h; subst h
          refine calc_cons hcmp fun s1 _ _ ⟨⟨f, hf, hfe⟩, _⟩ => ?_
          refine (setcc_calc .eq false s1 f hf).imp fun s' _ q => ?_
          rw [q, if_neg (by simp)]
          by_cases e : a = b
          · rw [if_pos (show (cmpCC .eq false).holds f = true from hfe.2 e), e]
            have : b.tdiv b = 1 := Int.tdiv_self (by omega)
            rw [this]; exact Low.of_eq _ _ h8
          · have hz : f.eq = false := by
              cases hfe' : f.eq
              · rfl
              · exact absurd (hfe.1 hfe') e
            have hne : ¬ (cmpCC .eq false).holds f = true := fun h => by
              have h : f.eq = true := h
              rw [hz] at h; cases h
            rw [if_neg hne]
            have : a.tdiv b = 0 := Int.tdiv_eq_zero_of_lt hn.1 (by omega)
            rw [this]; exact Low.of_eq _ _ h8
        | true =>
          simp only [Bool.not_true, Bool.false_eq_true, if_false] at h
          injection h with h; subst h
          refine calc_cons (Q := fun s1 => s1.r .dx = 0 ∧ s1.r .ax = s.r .ax) ?_ fun s1 hm1 _ q1 => ?_
          · exact calc_setR _ s .dx _ _ none (xor_self 4 .dx s (Or.inl rfl)) scratch_dx ⟨setR_same s .dx 0, setR_other s .dx .ax 0 (by simp)⟩
          · have hx1 : Low t.size a (s1.r .ax) := by rw [q1.2]; exact hx
            refine calc_cons (Q := fun s2 => (∃ f, s2.f = some f ∧ (f.eq = true ↔ a = b)) ∧ s2.r = s1.r) ?_ fun s2 hm2 _ ⟨⟨f, hf, hfe⟩, hr⟩ => ?_
            · refine calc_flags _ s1 _ _ (by simp only [exec]; rfl) ⟨⟨_, rfl, hflag _ ?_ _ ?_⟩, rfl⟩
              · simp only [X86.get]; exact hx1.zx
              · simp only [X86.get]; rw [← hv]; exact (Low.of_eq _ _ h8).zx
            · refine calc_setR' _ s2 .ax _ _ (by simp only [exec, hf]; rfl) scratch_ax ?_
              rw [setR_same, put_of_rop _ _ _ hsz]
              refine Low.zx ?_
              rw [hr]
              by_cases e : a = b
              · rw [if_pos (show CC.e.holds f = true from hfe.2 e), e, if_pos rfl, q1.1, Int.tmod_self]
                exact Low.of_eq _ _ h8
              · have hz : f.eq = false := by
                  cases hfe' : f.eq
                  · rfl
                  · exact absurd (hfe.1 hfe') e
                have : a.tmod b = a := Int.tmod_eq_of_lt hn.1 (by omega)
                have hne : ¬ CC.e.holds f = true := fun h => by
                  have h : f.eq = true := h
                  rw [hz] at h; cases h
                rw [if_neg hne, if_pos rfl, this]
                exact hx1
    · split at h
      · rename_i i hi
        injection h with h; subst h
        split at hi
        · rename_i hc
          simp only [Bool.and_eq_true, Bool.not_eq_true'] at hc
          obtain ⟨⟨hm, _⟩, hu⟩ := hc
          subst hm
          have hl := log2In_spec _ _ _ hi
          have hn := range_uns t a hw hu ha
          have hbn := range_uns t b hw hu hb
          refine (shl_calc .shr t.size i hsz (by omega) s).imp fun s' _ q => ?_
          refine Low.same ?_ q
          simp only [shOp, Bool.false_eq_true, if_false]
          have hbe : b = 2 ^ i := by
            have e := congrArg BitVec.toNat hl.2.2
            have e1 := toNat_ofInt64 b
            rw [e] at e1
            have : ((1 : Word) <<< i).toNat = 2 ^ i := by
              rw [BitVec.toNat_shiftLeft, show (1 : Word).toNat = 1 from rfl, Nat.shiftLeft_eq, Nat.one_mul]
              apply Nat.mod_eq_of_lt
              exact Nat.pow_lt_pow_right (by omega) (by omega)
            rw [this, Int.emod_eq_of_lt hbn.1 hbn.2] at e1
            rw [← e1]; push_cast; rfl
          have hq : zx t.size (s.r .ax) >>> i = BitVec.ofInt 64 (a.tdiv b) := by
            apply BitVec.eq_of_toNat_eq
            have e := toNat_ofInt64 (a.tdiv b)
            have hv := zx_val t a _ hw ha hx hu
            rw [BitVec.toNat_ushiftRight, Nat.shiftRight_eq_div_pow]
            have ht : a.tdiv b = a / b := Int.tdiv_eq_ediv_of_nonneg hn.1
            have hp : (0 : Int) < b := by rw [hbe]; exact Int.pow_pos (by omega)
            have h1 : 0 ≤ a / b := Int.ediv_nonneg hn.1 (by omega)
            have h2 : a / b ≤ a := Int.ediv_le_self _ hn.1
            rw [ht, Int.emod_eq_of_lt h1 (by omega)] at e
            have hcast : (((zx t.size (s.r .ax)).toNat / 2 ^ i : Nat) : Int) = a / b := by
              push_cast; rw [hv, hbe]
            rw [ht] at *
            omega
          rw [hq]; exact Low.of_eq _ _ h8
        · cases hi
      · split at h
        · rename_i hc
          simp only [Bool.and_eq_true, bne_iff_ne, ne_eq] at hc
          obtain ⟨⟨⟨hm, hp⟩, hu⟩, h0⟩ := hc
          subst hm
          obtain ⟨k, hk, hk1, hk2⟩ := isPow2_spec _ hp h0
          have hbn := range_uns t b hw hu hb
          have hbe : b = 2 ^ k := by
            have e1 := toNat_ofInt64 b
            rw [hk1, Int.emod_eq_of_lt hbn.1 hbn.2] at e1
            rw [← e1]; push_cast; rfl
          have hlow := mod_mask t a b (s.r .ax) k hw hu ha hx hbe _ hk2
          rw [if_pos rfl]
          split at h
          · rename_i hmk
            injection h with h; subst h
            refine calc_setR' _ s .ax _ _ (by simp only [exec, put']; rfl) scratch_ax ?_
            rw [setR_same, put_of_rop 4 _ _ (Or.inl rfl)]
            simp only [X86.get, zx_zx]
            have : zx 4 (s.r .ax) = s.r .ax &&& (BitVec.ofInt 64 b - 1) := by
              rw [hmk]
              apply BitVec.eq_of_toNat_eq
              rw [zx_toNat _ _ (by omega), BitVec.toNat_and]
              have : (0xffffffff : Word).toNat = 2 ^ 32 - 1 := rfl
              rw [this, Nat.and_two_pow_sub_one_eq_mod]
            rw [this]; exact hlow
          · split at h
            · rename_i hle
              injection h with h; subst h
              exact (and4_calc t.size hsz _ hle s).imp fun s' _ q => hlow.same q
            · injection h with h; subst h
              exact (immArith_calc .band .and t.size hsz _ s rfl).imp fun s' _ q => hlow.same q
        · cases h

/-- Shift by a constant. -/
theorem immShift_calc (k : ShKind) (sz : Nat) (hsz : sz = 4 ∨ sz = 8) (c : Int) (h0 : 0 ≤ c) (hc : c < 8 * sz) (s : St) :
    Calc E (immShift k sz (BitVec.ofInt 64 c)) s fun s' => SameLow sz (s'.r .ax) (shOp k sz (s.r .ax) c.toNat) := by
  have hn : (BitVec.ofInt 64 c).toNat = c.toNat := by
    have := toNat_ofInt64 c
    rw [Int.emod_eq_of_lt h0 (by omega)] at this
    omega
  unfold immShift
  split
  · rename_i h
    refine calc_nil s _ ?_
    have : c.toNat = 0 := by rw [← hn, h]; rfl
    rw [this]
    cases k <;> simp only [shOp]
    · rw [BitVec.shiftLeft_zero]; exact SameLow.rfl' _ _
    · rw [BitVec.ushiftRight_zero]; exact (sameLow_zx _ _).symm
    · rw [BitVec.sshiftRight_zero]; exact (sw_sx _ _ _ (Nat.le_refl _) (by omega)).symm
  · rw [hn]
    exact shl_calc k sz c.toNat hsz (by omega) s

/-- An instruction with a constant: through %rdx if it does not fit. -/
theorem immTmpl_run (f : Opd → Ins) (v : Word) (s s' : St) (h : ∀ s1 o, s1.m = s.m → (∀ r, r ≠ .dx → s1.r r = s.r r) →
      (∀ sz, sz ≤ 8 → X86.get E.sym s1 sz o = zx sz v) → ∃ s2, exec E.sym (f o) s1 = some s2 ∧ s2.m = s'.m ∧ (∀ r, ¬ Scratch r → s2.r r = s1.r r) ∧ s2.f = s'.f) :
    ∃ s2, execs E.sym (immTmpl f v) s = some s2 ∧ s2.m = s'.m ∧ (∀ r, ¬ Scratch r → s2.r r = s.r r) ∧ s2.f = s'.f := by
  have reg : ∀ z, z = 4 ∨ z = 8 → zx z v = v → ∃ s2, execs E.sym [.mov z (.imm v) (.reg .dx), f (.reg .dx)] s = some s2 ∧ s2.m = s'.m ∧
      (∀ r, ¬ Scratch r → s2.r r = s.r r) ∧ s2.f = s'.f := by
    intro z hz hv
    have e1 : exec E.sym (.mov z (.imm v) (.reg .dx)) s = some (s.setR .dx v) := by
      simp only [exec, put', X86.get, put_of_rop _ _ _ hz, zx_zx, hv]
    obtain ⟨s2, h1, h2, h3, h4⟩ := h (s.setR .dx v) (.reg .dx) rfl (fun r hr => setR_other _ _ _ _ hr) (fun sz _ => by simp only [X86.get]; rw [setR_same])
    refine ⟨s2, by simp only [execs, e1, Option.bind_some, h1], h2, fun r hr => (h3 r hr).trans (setR_other _ _ _ _ fun e => hr (e ▸ scratch_dx)), h4⟩
  unfold immTmpl
  split
  · obtain ⟨s2, h1, h2, h3, h4⟩ := h s (.imm v) rfl (fun _ _ => rfl) (fun _ _ => rfl)
    exact ⟨s2, by simp only [execs, h1, Option.bind_some], h2, h3, h4⟩
  · split
    · rename_i e; exact reg 4 (Or.inl rfl) e.symm
    · exact reg 8 (Or.inr rfl) (zx8 v)

end
end Slimcc
