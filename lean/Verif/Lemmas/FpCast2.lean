import Verif.Lemmas.FpCast
/-! Unsigned 64-bit integers to floating types; floating types to integers. -/
set_option autoImplicit false
namespace Slimcc.FP
open Slimcc.Spec Slimcc.Spec.FP Slimcc.X86 Slimcc.Ty Slimcc.Gen
variable {sym : Nat → Word}

theorem test_slt (x : Word) : (testFlags 8 (zx 8 x &&& zx 8 x)).slt = decide (2 ^ 63 ≤ x.toNat) := by
  rw [zx8, BitVec.and_self]
  show (sx 8 x).slt 0 = _
  rw [sx8, BitVec.slt_eq_decide]
  congr 1
  apply propext
  have := x.isLt
  rw [BitVec.toInt_eq_toNat_cond]
  show (if 2 * x.toNat < 2 ^ 64 then (x.toNat : ℤ) else x.toNat - (2 ^ 64 : Nat)) < 0 ↔ _
  split <;> omega

theorem shr_or (x : Word) : (x >>> 1 ||| (x &&& 1)).toNat = x.toNat / 2 ||| x.toNat % 2 := by
  rw [BitVec.toNat_or, BitVec.toNat_ushiftRight, BitVec.toNat_and, Nat.shiftRight_eq_div_pow]
  congr 1
  exact Nat.and_one_is_mod _

theorem run_u64f (d : Bool) (s : FS) :
    Runs sym (u64f d) none s fun s' => datum d (s'.xmm 0) = ofInt (fmtOf d) (s.g.r .ax).toNat ∧ s'.st = s.st ∧ Undisturbed s s' := by
  generalize hx : s.g.r .ax = x
  have hxl := x.isLt
  refine runs_gp rfl (runs_jcc (f := testFlags 8 (zx 8 x &&& zx 8 x)) (by rw [← hx]; rfl) ?_)
  have hl : CC.l.holds (testFlags 8 (zx 8 x &&& zx 8 x)) = decide (2 ^ 63 ≤ x.toNat) := test_slt x
  rw [hl]
  by_cases hc : 2 ^ 63 ≤ x.toNat
  · rw [if_pos (decide_eq_true hc)]
    show Runs sym [.i (.gp (.mov 8 (.reg .ax) (.reg .dx))), .i (.gp (.alu .and 4 (.imm 1) (.reg .ax))), .i (.pxor 0 0),
      .i (.gp (.shft .shr 8 (.imm 1) .dx)),
      .i (.gp (.alu .or 8 (.reg .ax) (.reg .dx))), .i (.cvtsi d 8 .dx 0), .i (.adds d 0 0), .lab 2] none _ _
    refine runs_gp rfl (runs_gp rfl (runs_i rfl (runs_gp rfl (runs_gp rfl (runs_i rfl (runs_i rfl (runs_lab (runs_nil ⟨?_, rfl, ?_⟩))))))))
    · rw [datum_set _ d 0 (add_has _ (okOf d) _ _), datum_set _ d 0 (ofInt_has _ (okOf d) _)]
      have hdx : ∀ y : Word, y = x >>> 1 ||| (x &&& 1) →
          add (fmtOf d) (ofInt (fmtOf d) (sx 8 y).toInt) (ofInt (fmtOf d) (sx 8 y).toInt) = ofInt (fmtOf d) x.toNat := by
        intro y hy
        have hn : y.toNat = x.toNat / 2 ||| x.toNat % 2 := by rw [hy, shr_or]
        have hlt : x.toNat / 2 ||| x.toNat % 2 < 2 ^ 63 := Nat.or_lt_two_pow (by omega) (by omega)
        have hi : (sx 8 y).toInt = ((x.toNat / 2 ||| x.toNat % 2 : Nat) : ℤ) := by
          rw [sx8, BitVec.toInt_eq_toNat_of_lt (by omega), hn]
        rw [hi]
        cases d
        · exact sticky_add f32 width32.1 (by decide) ⟨by decide, by decide⟩ (by decide) _ hc hxl
        · exact sticky_add f64 width64.1 (by decide) ⟨by decide, by decide⟩ (by decide) _ hc hxl
      apply hdx
      show zx 8 (zx 8 (zx 8 (s.g.r .ax)) >>> 1) ||| zx 8 (zx 4 (zx 4 (s.g.r .ax) &&& zx 4 1)) = _
      rw [zx8, zx8, zx8, zx8, hx]
      congr 1
      apply BitVec.eq_of_getLsbD_eq
      intro i hi
      simp only [zx, BitVec.getLsbD_setWidth, BitVec.getLsbD_and]
      by_cases h : i < 32
      · simp [h, hi]
      · have h1 : (1#64).getLsbD i = false := by rw [BitVec.getLsbD_one]; simp; omega
        simp [h, h1]
    · exact ⟨rfl, fun _ => rfl, rfl, fun i hi => by simp [FS.setF, FS.setX, show i ≠ 0 by omega], fun _ _ => rfl⟩
  · rw [if_neg (by simpa using hc)]
    refine runs_i rfl (runs_i rfl (runs_jmp ?_))
    show Runs sym [] none _ _
    refine runs_nil ⟨?_, rfl, ?_⟩
    · rw [datum_set _ d 0 (ofInt_has _ (okOf d) _), sx8]
      show ofInt _ (s.g.r .ax).toInt = _
      rw [hx, BitVec.toInt_eq_toNat_of_lt (by omega)]
    · exact ⟨rfl, fun _ => rfl, rfl, fun i hi => by simp [FS.setF, FS.setX, show i ≠ 0 by omega], fun _ _ => rfl⟩

/-- Integers of 64 bits are numbers of the x87 format. -/
theorem ofInt80 (z : Int) (h : z.natAbs < 2 ^ 64) : (ofInt f80 z).val = some (z : ℚ) := by
  obtain ⟨y, h1, h2⟩ := representable f80 (decide (z < 0)) z.natAbs 0 ok80 h (by decide) (by decide)
  refine Rounded.exact ok80 (ofInt_rounded f80 ok80 z) h1 ?_
  rw [h2, val_fin, zpow_zero, mul_one, natAbs_q]

theorem two64 : (convert f80 (datum false (zx 4 1602224128))).val = some (2 ^ 64) := by
  have h : datum false (zx 4 1602224128) = .fin false (2 ^ 23) 41 := by decide +kernel
  rw [h]
  obtain ⟨y, h1, h2⟩ := representable f80 false (2 ^ 23) 41 ok80 (by decide) (by decide) (by decide)
  have h3 := round_rounded f80 ok80 false (2 ^ 23) 41
  have h4 : sgn false * ((2 ^ 23 : Nat) : ℚ) * 2 ^ (41 : ℤ) = 2 ^ 64 := by
    rw [show (41 : ℤ) = ((41 : Nat) : ℤ) from rfl, zpow_natCast]; norm_num [sgn]
  rw [h4] at h3
  refine Rounded.exact ok80 h3 h1 ?_
  rw [h2, val_fin, h4]

theorem disj_off (q : Word) (i n j k : Nat) (h : i + n ≤ j ∨ j + k ≤ i) (hi : i < 64) (hj : j < 64) (hn : n < 64) (hk : k < 64) :
    Disj (q + BitVec.ofInt 64 i) n (q + BitVec.ofInt 64 j) k := by
  rintro c ⟨h1, h2⟩
  unfold InBlk at *
  rw [BitVec.ofInt_natCast] at h1 h2
  generalize hu : c - q = u at *
  have e1 : c - (q + BitVec.ofNat 64 i) = u - BitVec.ofNat 64 i := by rw [← hu]; generalize BitVec.ofNat 64 i = a; bv_omega
  have e2 : c - (q + BitVec.ofNat 64 j) = u - BitVec.ofNat 64 j := by rw [← hu]; generalize BitVec.ofNat 64 j = a; bv_omega
  rw [e1, BitVec.toNat_sub, BitVec.toNat_ofNat, Nat.mod_eq_of_lt (show i < 2 ^ 64 by omega)] at h1
  rw [e2, BitVec.toNat_sub, BitVec.toNat_ofNat, Nat.mod_eq_of_lt (show j < 2 ^ 64 by omega)] at h2
  have := u.isLt
  omega

theorem tmp_rsp {i : Nat} (h : i ≠ 6) : (Reg.tmp i = rsp) = False := by simp [rsp, h]

theorem run_u64f80 (s : FS) (hst : s.st.length < 8) (hcw : plainCW s.cw) :
    Runs sym u64f80 none s fun s' => (∃ r, f80.has r ∧ Rounded f80 (s.g.r .ax).toNat r ∧ ((s.g.r .ax) = 0 → r = ofInt f80 0) ∧ s'.st = r :: s.st) ∧ Undisturbed s s' := by
  generalize hx : s.g.r .ax = x
  have hxl := x.isLt
  refine runs_i rfl (runs_i (push_some _ _ hst) (runs_gp rfl (runs_jcc (f := testFlags 8 (zx 8 x &&& zx 8 x)) (by rw [← hx]; rfl) ?_)))
  have hl : CC.ge.holds (testFlags 8 (zx 8 x &&& zx 8 x)) = !decide (2 ^ 63 ≤ x.toNat) := by
    show (!(testFlags 8 (zx 8 x &&& zx 8 x)).slt) = _
    rw [test_slt]
  have hfild : sx 8 (rd (wr s.g.m (s.g.r rsp - 8) 8 (s.g.r .ax)) (s.g.r rsp - 8 + BitVec.ofInt 64 0) 8) = x := by
    rw [rd_push8, sx8, hx]
  rw [hl]
  by_cases hc : 2 ^ 63 ≤ x.toNat
  · rw [decide_eq_true hc]
    show Runs sym [.i (.gp (.mov 4 (.imm 1602224128) (.reg .ax))), .i (.gp (.mov 4 (.reg .ax) (.mem (at_ 4)))), .i (.fadd false (at_ 4)),
      .lab 1, .i .pop] none _ _
    refine runs_gp rfl (runs_gp rfl (runs_i (if_pos hcw) (runs_lab (runs_i rfl (runs_nil ⟨?_, ?_⟩)))))
    · refine ⟨_, add_has _ ok80 _ _, ?_, ?_, rfl⟩
      · have hi : x.toInt = (x.toNat : ℤ) - 2 ^ 64 := by
          rw [BitVec.toInt_eq_toNat_cond, if_neg (by omega)]; norm_num
        have h1 : (ofInt f80 x.toInt).val = some ((x.toNat : ℚ) - 2 ^ 64) := by
          rw [ofInt80 _ (by omega), hi]; push_cast; rfl
        have h2 := add_rounded f80 ok80 h1 two64
        rw [sub_add_cancel] at h2
        have e1 : ∀ a b : Word, a = x → b = zx 4 1602224128 →
          add f80 (ofInt f80 a.toInt) (convert f80 (datum false b)) = add f80 (ofInt f80 x.toInt) (convert f80 (datum false (zx 4 1602224128))) := by
          rintro a b rfl rfl; rfl
        have e2 := e1 _ (rd (wr (wr s.g.m (s.g.r rsp - 8) 8 (s.g.r .ax)) (s.g.r rsp - 8 + BitVec.ofInt 64 4) 4 (zx 4 (zx 4 (zx 4 1602224128)))) (s.g.r rsp - 8 + BitVec.ofInt 64 4) 4) hfild (by
          rw [rd_wr_same _ _ _ _ (by omega), zx_zx, zx_zx, zx_zx])
        rw [← e2] at h2
        exact h2
      · intro h0; rw [h0] at hc; exact absurd hc (by decide)
    · refine ⟨rfl, fun i => ?_, rfl, fun _ _ => rfl, fun a ha => ?_⟩
      · by_cases hi : i = 6
        · subst hi
          show s.g.r rsp - 8 + 8 = s.g.r rsp
          exact sub_add8 _
        · simp [St.setR, tmp_rsp hi]
      · show wr (wr s.g.m (s.g.r rsp - 8) 8 (s.g.r .ax)) (s.g.r rsp - 8 + BitVec.ofInt 64 4) 4 _ a = _
        rw [wr_other _ _ _ _ _ ?_, wr_other _ _ _ _ _ (below8 _ _ ha)]
        have := below (s.g.r rsp) a 20 4 (by omega) ha
        have e : s.g.r rsp - 24 + BitVec.ofNat 64 20 = s.g.r rsp - 8 + BitVec.ofInt 64 4 := by
          generalize s.g.r rsp = q
          rw [BitVec.sub_eq_add_neg, BitVec.sub_eq_add_neg, BitVec.add_assoc, BitVec.add_assoc]; rfl
        rwa [e] at this
  · rw [decide_eq_false hc]
    show Runs sym [.i .pop] none _ _
    refine runs_i rfl (runs_nil ⟨?_, ?_⟩)
    · refine ⟨_, ofInt_has _ ok80 _, ?_, ?_, rfl⟩
      · have hi : x.toInt = (x.toNat : ℤ) := BitVec.toInt_eq_toNat_of_lt (by omega)
        have h := ofInt_rounded f80 ok80 x.toInt
        rw [hi] at h
        have e1 : ∀ a : Word, a = x → Rounded f80 ((x.toNat : ℤ) : ℚ) (ofInt f80 a.toInt) := by
          rintro a rfl; rw [hi]; exact h
        have := e1 _ hfild
        rw [Int.cast_natCast] at this
        exact this
      · intro h0
        have e1 : ∀ a : Word, a = x → ofInt f80 a.toInt = ofInt f80 0 := by rintro a rfl; rw [h0]; rfl
        exact e1 _ hfild
    · refine ⟨rfl, fun i => ?_, rfl, fun _ _ => rfl, fun a ha => wr_other _ _ _ _ _ (below8 _ _ ha)⟩
      by_cases hi : i = 6
      · subst hi
        show s.g.r rsp - 8 + 8 = s.g.r rsp
        exact sub_add8 _
      · simp [St.setR, tmp_rsp hi]

end Slimcc.FP
