import Verif.Lemmas.FpCast3
/-! long double to integers, floating types to each other. -/
set_option autoImplicit false
namespace Slimcc.FP
open Slimcc.Spec Slimcc.Spec.CTy Slimcc.Spec.FP Slimcc.X86 Slimcc.Ty Slimcc.Gen
variable {sym : Nat → Word}

theorem ld_ext (T : CTy) (t : ℤ) (sz : Nat) (h8 : sz ≤ 8) (hs : (ity T).size ≤ sz) (hw : (ity T).wf = true) (hT : InRange (cty (ity T)) t) (g : St)
    (h : rd g.m (g.r rsp) sz = zx sz (BitVec.ofInt 64 t)) :
    ∃ w, exec sym (.movx (!(ity T).uns) (ity T).size 4 (.mem (at_ 0)) .ax) g = some (g.setR .ax w) ∧ Low 4 t w := by
  refine ⟨_, rfl, ?_⟩
  show Low 4 t (put 4 _ (if (!(ity T).uns) = true then sx (ity T).size (rd g.m (g.r rsp + BitVec.ofInt 64 0) (ity T).size) else rd g.m (g.r rsp + BitVec.ofInt 64 0) (ity T).size))
  rw [off0, put4, rd_prefix _ _ sz _ h8 hs, h]
  have hl : Low (ity T).size t (zx sz (BitVec.ofInt 64 t)) := ((Low.of_eq sz t h8).zx).mono hs h8
  have := ext_low (ity T) t _ hw hT hl
  have e2 : (if (!(ity T).uns) = true then sx (ity T).size (zx (ity T).size (zx sz (BitVec.ofInt 64 t))) else zx (ity T).size (zx sz (BitVec.ofInt 64 t))) = BitVec.ofInt 64 t := by
    refine Eq.trans ?_ this
    rw [sx_zx]; cases (ity T).uns <;> rfl
  rw [e2]
  exact (Low.of_eq 4 t (by omega)).zx

/-- The conversions that store an integer of `sz` bytes and load from it with extension. -/
theorem run_f80ext (T : CTy) (t : ℤ) (sz : Nat) (h8 : sz ≤ 8) (hs : (ity T).size ≤ sz) (hw : (ity T).wf = true) (hT : InRange (cty (ity T)) t)
    (x : Fl) (st : List Fl) (s : FS) (hst : s.st = x :: st) (ht : roundInt 3 x = some t) (h1 : -2 ^ (8 * sz - 1) ≤ t) (h2 : t < 2 ^ (8 * sz - 1)) :
    Runs sym (f80int sz (.movx (!(ity T).uns) (ity T).size 4 (.mem (at_ 0)) .ax)) none s
      fun s' => Low 4 t (s'.g.r .ax) ∧ s'.st = st ∧ Undisturbed s s' := by
  refine run_f80int sz h8 _ x st s hst (Low 4 t) fun g hg => ?_
  rw [ht, intBits_in sz t h1 h2] at hg
  exact ld_ext T t sz h8 hs hw hT g hg

theorem run_f80i32 (x : Fl) (w : ℤ) (st : List Fl) (s : FS) (hst : s.st = x :: st) (ht : intBits 4 (roundInt 3 x) = BitVec.ofInt 64 w) :
    Runs sym f80i32 none s fun s' => Low 4 w (s'.g.r .ax) ∧ s'.st = st ∧ Undisturbed s s' := by
  refine run_f80int 4 (by omega) _ x st s hst (Low 4 w) fun g hg => ⟨_, rfl, ?_⟩
  show Low 4 w (put 4 _ (rd g.m (g.r rsp + BitVec.ofInt 64 0) 4))
  rw [off0, put4, hg, ht]
  exact ((Low.of_eq 4 w (by omega)).zx).zx

theorem run_f80i64 (x : Fl) (t : ℤ) (st : List Fl) (s : FS) (hst : s.st = x :: st) (ht : roundInt 3 x = some t) (h1 : -2 ^ 63 ≤ t) (h2 : t < 2 ^ 63) :
    Runs sym f80i64 none s fun s' => s'.g.r .ax = BitVec.ofInt 64 t ∧ s'.st = st ∧ Undisturbed s s' := by
  refine run_f80int 8 (by omega) _ x st s hst (fun w => w = BitVec.ofInt 64 t) fun g hg => ⟨_, rfl, ?_⟩
  show put 8 _ (rd g.m (g.r rsp + BitVec.ofInt 64 0) 8) = _
  rw [off0, put8, hg, ht, intBits_in 8 t (by simpa using h1) (by simpa using h2), zx8]

/-! long double to unsigned 64-bit integers -/

/-- Comparison is that of the numbers. -/
theorem compare_val {x y : Fl} {v w : ℚ} (hx : x.val = some v) (hy : y.val = some w) : compare x y = some (decide (v < w), decide (v = w)) := by
  cases x with
  | nan => simp [Fl.val] at hx
  | inf _ => simp [Fl.val] at hx
  | fin a m e =>
  cases y with
  | nan => simp [Fl.val] at hy
  | inf _ => simp [Fl.val] at hy
  | fin b k f =>
  rw [val_fin, Option.some.injEq] at hx hy
  have hd1 : (2 : ℚ) ^ e = 2 ^ (min e f) * 2 ^ (e - min e f).toNat := by
    rw [← zpow_natCast, ← zpow_add₀ (by norm_num)]; congr 1; omega
  have hd2 : (2 : ℚ) ^ f = 2 ^ (min e f) * 2 ^ (f - min e f).toNat := by
    rw [← zpow_natCast, ← zpow_add₀ (by norm_num)]; congr 1; omega
  have hpos := two_zpow_pos (min e f)
  have e1 : v = (((if a then -1 else 1) * (m * 2 ^ (e - min e f).toNat : Nat) : ℤ) : ℚ) * 2 ^ min e f := by
    rw [← hx, hd1]; cases a <;> simp [sgn] <;> ring
  have e2 : w = (((if b then -1 else 1) * (k * 2 ^ (f - min e f).toNat : Nat) : ℤ) : ℚ) * 2 ^ min e f := by
    rw [← hy, hd2]; cases b <;> simp [sgn] <;> ring
  simp only [compare]
  rw [e1, e2]
  congr 2
  · rw [decide_eq_decide, mul_lt_mul_iff_left₀ hpos, Int.cast_lt]
  · rw [decide_eq_decide, mul_left_inj' hpos.ne', Int.cast_inj]

theorem below16 (sp a : Word) (i : ℤ) (n : Nat) (h0 : 0 ≤ i) (h : i + n ≤ 16) (ha : ¬ InBlk (sp - 24) 24 a) : ¬ InBlk (sp - 16 + BitVec.ofInt 64 i) n a := by
  have := below24 sp a (8 + i) n (by omega) (by omega) ha
  rw [BitVec.ofInt_add, ← BitVec.add_assoc] at this
  have e : sp - 24 + BitVec.ofInt 64 8 = sp - 16 := by rw [BitVec.sub_eq_add_neg, BitVec.sub_eq_add_neg, BitVec.add_assoc]; rfl
  rwa [e] at this

theorem sub_add16 (sp : Word) : sp - 16 + 16 = sp := BitVec.sub_add_cancel _ _

theorem put1_shl (o : Word) (b : Bool) : (put 1 o (if b = true then 1 else 0)) <<< 63 = if b = true then BitVec.ofNat 64 (2 ^ 63) else 0 := by
  apply BitVec.eq_of_getLsbD_eq
  intro i hi
  rw [BitVec.getLsbD_shiftLeft]
  have h0 : (put 1 o (if b = true then 1 else 0)).getLsbD 0 = b := by
    unfold put
    rw [if_neg (by decide), if_neg (by decide), BitVec.getLsbD_or, BitVec.getLsbD_shiftLeft]
    unfold zx
    rw [BitVec.getLsbD_setWidth, BitVec.getLsbD_setWidth]
    cases b <;> simp
  by_cases h : i = 63
  · subst h
    rw [Nat.sub_self, h0]
    cases b <;> rfl
  · have : (BitVec.ofNat 64 (2 ^ 63)).getLsbD i = false := by
      rw [BitVec.getLsbD_ofNat, Nat.testBit_two_pow]; simp; omega
    cases b
    · simp; omega
    · show _ = (BitVec.ofNat 64 (2 ^ 63)).getLsbD i
      rw [this]; simp; omega

theorem xor_top (t : ℤ) (h1 : 2 ^ 63 ≤ t) (h2 : t < 2 ^ 64) : BitVec.ofNat 64 (2 ^ 63) ^^^ BitVec.ofInt 64 (t - 2 ^ 63) = BitVec.ofInt 64 t := by
  rw [← or_top t h1 h2]
  apply BitVec.eq_of_getLsbD_eq
  intro i hi
  rw [BitVec.getLsbD_xor, BitVec.getLsbD_or, BitVec.getLsbD_ofNat, Nat.testBit_two_pow]
  by_cases h : i = 63
  · subst h
    have : (BitVec.ofInt 64 (t - 2 ^ 63)).getLsbD 63 = false := by
      rw [BitVec.getLsbD, toNat_ofInt64 _ (by omega) (by omega)]
      exact Nat.testBit_lt_two_pow (by omega)
    rw [this]; simp
  · have : ¬ 63 = i := fun h' => h h'.symm
    simp [this]

theorem two63_80 : convert f80 (datum false (zx 4 0x5f000000)) = .fin false (2 ^ 63) 0 := by decide +kernel

theorem run_f80u64 (x : Fl) (v : ℚ) (st : List Fl) (s : FS) (hs : s.st = x :: st) (hx : f80.has x) (hv : x.val = some v) (h1 : 0 ≤ truncated v) (h2 : truncated v < 2 ^ 64)
    (hl : st.length ≤ 5) (hcw : plainCW s.cw) :
    Runs sym f80u64 none s fun s' => s'.g.r .ax = BitVec.ofInt 64 (truncated v) ∧ s'.st = st ∧ Undisturbed s s' := by
  generalize hsp : s.g.r rsp - 16 = sp
  have hval : (Fl.fin false (2 ^ 63) 0).val = some (2 ^ 63) := by rw [val_fin, zpow_zero]; norm_num [sgn]
  have hcmp := compare_val hval hv
  generalize hbe : decide ((2 : ℚ) ^ 63 ≤ v) = be
  have hbe' : (decide ((2 : ℚ) ^ 63 < v) || decide ((2 : ℚ) ^ 63 = v)) = be := by
    rw [← hbe, ← Bool.decide_or, decide_eq_decide]; exact le_iff_lt_or_eq.symm
  generalize hr : sub f80 x (if be = true then Fl.fin false (2 ^ 63) 0 else .fin false 0 f80.emin) = r
  have hri : ∃ t', intBits 8 (roundInt 3 r) = BitVec.ofInt 64 t' ∧ (if be = true then BitVec.ofNat 64 (2 ^ 63) else (0 : Word)) ^^^ BitVec.ofInt 64 t' = BitVec.ofInt 64 (truncated v) := by
    cases be with
    | true =>
      have h63 : (2 : ℚ) ^ 63 ≤ v := of_decide_eq_true hbe
      have hv64 : v < 2 ^ 64 := by
        have := (trunc_lt v (2 ^ 64) (by norm_num)).1 h2
        push_cast at this; exact this
      have hsub : r.val = some (v - 2 ^ 63) := by
        rw [← hr, if_pos rfl]
        exact sub_two63 f80 ok80 (by decide) (by decide) ⟨by decide, by decide⟩ (by decide) x v hx hv h63 hv64
      have hge : ¬ truncated v < 2 ^ 63 := by
        intro hh
        have := (trunc_lt v (2 ^ 63) (by norm_num)).1 hh
        push_cast at this; linarith
      have hr3 := roundInt_trunc hsub
      rw [trunc_sub v h63] at hr3
      exact ⟨truncated v - 2 ^ 63, by rw [hr3, intBits_in 8 _ (by simp; omega) (by simp; omega)], by rw [if_pos rfl, xor_top _ (by omega) h2]⟩
    | false =>
      have h63 : ¬ (2 : ℚ) ^ 63 ≤ v := of_decide_eq_false hbe
      have hlt : truncated v < 2 ^ 63 := (trunc_lt v (2 ^ 63) (by norm_num)).2 (by push_cast; exact not_le.1 h63)
      have hsub : r.val = some v := by
        rw [← hr, if_neg (by decide)]
        have h0 : (neg (Fl.fin false 0 f80.emin)).val = some 0 := by show (Fl.fin true 0 f80.emin).val = _; rw [val_fin]; simp
        have := add_rounded f80 ok80 hv h0
        rw [add_zero] at this
        exact Rounded.exact ok80 this hx hv
      have hr3 := roundInt_trunc hsub
      exact ⟨truncated v, by rw [hr3, intBits_in 8 _ (by simp; omega) (by simpa using hlt)], by rw [if_neg (by decide)]; simp⟩
  obtain ⟨t', ht', hxor⟩ := hri
  show Runs sym [.i (.gp (.alu .sub 8 (.imm 16) (.reg rsp))), .i (.gp (.mov 4 (.imm 0x5f000000) (.mem (at_ 12)))), .i (.fld false (at_ 12)),
    .i .fucomi, .i (.gp (.set .be .ax)), .i .fldz, .i .fcmovbe, .i .fstp1, .i .fsubrp, .i (.fnstcw (at_ 4)),
    .i (.gp (.movx false 2 4 (.mem (at_ 4)) .cx)), .i (.gp (.alu .or 4 (.imm 3072) (.reg .cx))), .i (.gp (.mov 2 (.reg .cx) (.mem (at_ 6)))),
    .i (.fldcw (at_ 6)), .i (.fistp 8 (at_ 8)), .i (.fldcw (at_ 4)), .i (.gp (.shft .shl 8 (.imm 63) .ax)),
    .i (.gp (.alu .xor 8 (.mem (at_ 8)) (.reg .ax))), .i (.gp (.alu .add 8 (.imm 16) (.reg rsp)))] none s _
  refine runs_gp rfl (runs_gp rfl ?_)
  simp only [at_, ea, St.setR, St.noFlags, put8, put4, aluOp, X86.get, zx8, reduceCtorEq, if_false, if_true, rsp, hs] at hsp ⊢
  rw [hsp]
  generalize hm0 : wr s.g.m (sp + BitVec.ofInt 64 12) 4 _ = m0
  have hld : convert f80 (datum false (rd m0 (sp + BitVec.ofInt 64 12) 4)) = .fin false (2 ^ 63) 0 := by
    rw [← hm0, rd_wr_same _ _ _ _ (by omega), zx_zx]; exact two63_80
  refine runs_i (push_some _ _ (by simp only [List.length_cons]; omega)) ?_
  simp only [ea, Bool.false_eq_true, if_false, if_true, hld]
  refine runs_i (by simp only [fexec, hcmp]; rfl) ?_
  refine runs_gp rfl ?_
  refine runs_i (push_some _ _ (by simp only [List.length_cons]; omega)) ?_
  refine runs_i rfl (runs_i rfl (runs_i (if_pos hcw) ?_))
  have hh : CC.be.holds ⟨decide ((2 : ℚ) ^ 63 = v), decide ((2 : ℚ) ^ 63 < v), false⟩ = be := hbe'
  simp only [St.setR, hh, hr]
  refine runs_i rfl (runs_gp rfl (runs_gp rfl (runs_gp rfl (runs_i rfl ?_))))
  simp only [ea, St.setR, St.noFlags, put8, put4, aluOp, X86.get, zx8, reduceCtorEq, if_false, if_true, Bool.false_eq_true]
  generalize hm1 : wr m0 (sp + BitVec.ofInt 64 4) 2 (BitVec.setWidth 64 s.cw) = m1
  have hr1 : rd m1 (sp + BitVec.ofInt 64 4) 2 = zx 2 (s.cw.setWidth 64) := by rw [← hm1, rd_wr_same _ _ _ _ (by omega)]
  rw [hr1]
  generalize hy : zx 4 (zx 4 (zx 4 (zx 2 (BitVec.setWidth 64 s.cw))) ||| zx 4 3072) = y
  have hyb : ∀ i, i < 16 → y.getLsbD i = (s.cw.getLsbD i || (0xc00#64).getLsbD i) := by
    intro i hi
    rw [← hy]
    unfold zx
    simp only [BitVec.getLsbD_setWidth, BitVec.getLsbD_or, decide_eq_true (show i < 8 * 2 by omega), decide_eq_true (show i < 8 * 4 by omega),
      decide_eq_true (show i < 64 by omega), Bool.true_and]
    rfl
  generalize hm2 : wr m1 (sp + BitVec.ofInt 64 6) 2 (zx 2 y) = m2
  have hr2 : rd m2 (sp + BitVec.ofInt 64 6) 2 = zx 2 y := by rw [← hm2, rd_wr_same _ _ _ _ (by omega), zx_zx]
  rw [hr2]
  have hrc : ((zx 2 y).setWidth 16).extractLsb' 10 2 = 3#2 := or_c00_rc s.cw _ fun i hi => by rw [zx2_bits _ _ hi]; exact hyb i hi
  generalize (zx 2 y).setWidth 16 = cw1 at hrc
  refine runs_i rfl (runs_i rfl ?_)
  simp only [ea, reduceCtorEq, if_false, if_true]
  rw [show cw1.extractLsb' 10 2 = (3 : BitVec 2) from hrc, ht']
  generalize hm3 : wr m2 (sp + BitVec.ofInt 64 8) 8 (BitVec.ofInt 64 t') = m3
  have hr3 : rd m3 (sp + BitVec.ofInt 64 4) 2 = zx 2 (s.cw.setWidth 64) := by
    rw [← hm3, rd_wr_disj _ _ _ _ _ _ (by omega) (disj_int sp 8 8 4 2 (by omega) (by omega) (by omega) (by omega) (by omega)), ← hm2,
      rd_wr_disj _ _ _ _ _ _ (by omega) (disj_int sp 6 2 4 2 (by omega) (by omega) (by omega) (by omega) (by omega)), hr1]
  have hr4 : rd m3 (sp + BitVec.ofInt 64 8) 8 = BitVec.ofInt 64 t' := by rw [← hm3, rd_wr_same _ _ _ _ (by omega), zx8]
  rw [hr3, cw_back]
  refine runs_gp rfl (runs_gp rfl (runs_gp rfl (runs_nil ⟨?_, rfl, ⟨rfl, fun i => ?_, rfl, fun _ _ => rfl, fun a ha => ?_⟩⟩)))
  · show zx 8 (put 8 0 (shOp .shl 8 (put 1 (s.g.r .ax) (if be = true then 1 else 0)) 63)) ^^^ zx 8 (rd m3 (sp + BitVec.ofInt 64 8) 8) = _
    rw [hr4, zx8, zx8, put8]
    show (put 1 (s.g.r .ax) (if be = true then 1 else 0)) <<< 63 ^^^ _ = _
    rw [put1_shl, hxor]
  · by_cases hi : i = 6
    · subst hi
      show zx 8 sp + zx 8 16 = s.g.r (.tmp 6)
      rw [zx8, zx8, ← hsp]; exact sub_add16 _
    · have : (Reg.tmp i = Reg.tmp 6) = False := by simp [hi]
      simp only [St.noFlags, St.setR, this, if_false, reduceCtorEq]
  · show m3 a = _
    have hb := fun i n h0 h => below16 (s.g.r rsp) a i n h0 h ha
    rw [show s.g.r rsp - 16 = sp from hsp] at hb
    rw [← hm3, wr_other _ _ _ _ _ (hb 8 8 (by omega) (by omega)), ← hm2, wr_other _ _ _ _ _ (hb 6 2 (by omega) (by omega)), ← hm1,
      wr_other _ _ _ _ _ (hb 4 2 (by omega) (by omega)), ← hm0, wr_other _ _ _ _ _ (hb 12 4 (by omega) (by omega))]

/-! floating types to each other -/

theorem convert_has (F : Fmt) (hF : Fmt.Ok F) (x : Fl) : F.has (convert F x) := by
  cases x with
  | nan => trivial
  | inf _ => trivial
  | fin n m e => exact round_has F hF n m e

theorem convert_rounded (F : Fmt) (hF : Fmt.Ok F) {x : Fl} {v : ℚ} (h : x.val = some v) : Rounded F v (convert F x) := by
  cases x with
  | nan => simp [Fl.val] at h
  | inf _ => simp [Fl.val] at h
  | fin n m e =>
    rw [val_fin, Option.some.injEq] at h
    rw [← h]; exact round_rounded F hF n m e

theorem run_ff (d : Bool) (s : FS) : Runs sym (ff d) none s fun s' =>
    datum (!d) (s'.xmm 0) = convert (fmtOf (!d)) (datum d (s.xmm 0)) ∧ s'.st = s.st ∧ Undisturbed s s' := by
  refine runs_i rfl (runs_nil ⟨?_, rfl, und_setF s _ _⟩)
  exact datum_set s (!d) 0 (convert_has _ (okOf _) _)

theorem datum_zx (d : Bool) (w : Word) : datum d (zx (if d = true then 8 else 4) w) = datum d w := by
  cases d
  · show decode f32 32 (zx 4 (zx 4 w)).toNat = decode f32 32 (zx 4 w).toNat
    rw [zx_zx]
  · show datum true (zx 8 w) = _
    rw [zx8]

theorem sub8_add (sp : Word) : zx 8 (sp - 8) + zx 8 8 = sp := by rw [zx8, zx8]; exact sub_add8 _

theorem run_ff80 (d : Bool) (s : FS) (hst : s.st.length < 8) : Runs sym (ff80 d) none s fun s' =>
    s'.st = convert f80 (datum d (s.xmm 0)) :: s.st ∧ Undisturbed s s' := by
  refine runs_gp rfl (runs_i rfl (runs_i (push_some _ _ hst) (runs_gp rfl (runs_nil ⟨?_, ⟨rfl, fun i => ?_, rfl, fun _ _ => rfl, fun a ha => ?_⟩⟩))))
  · show convert f80 (datum d (rd (wr s.g.m (zx 8 (s.g.r rsp) - zx 8 8 + BitVec.ofInt 64 0) (if d = true then 8 else 4) (s.xmm 0)) (zx 8 (s.g.r rsp) - zx 8 8 + BitVec.ofInt 64 0) (if d = true then 8 else 4))) :: s.st = _
    rw [rd_wr_same _ _ _ _ (by split <;> omega), datum_zx]
  · by_cases hi : i = 6
    · subst hi
      show zx 8 (zx 8 (s.g.r rsp) - zx 8 8) + zx 8 8 = s.g.r rsp
      rw [zx8, zx8]; exact sub8_add _
    · have : (Reg.tmp i = rsp) = False := tmp_rsp hi
      simp only [St.noFlags, St.setR, this, if_false]
  · show wr s.g.m (zx 8 (s.g.r rsp) - zx 8 8 + BitVec.ofInt 64 0) (if d = true then 8 else 4) (s.xmm 0) a = _
    rw [zx8, zx8, off0]
    refine wr_other _ _ _ _ _ fun h => below8 _ _ ha ?_
    unfold InBlk at *
    revert h; cases d <;> simp <;> omega

theorem run_f80f (d : Bool) (x : Fl) (st : List Fl) (s : FS) (hs : s.st = x :: st) (hcw : plainCW s.cw) : Runs sym (f80f d) none s fun s' =>
    datum d (s'.xmm 0) = convert (fmtOf d) x ∧ s'.st = st ∧ Undisturbed s s' := by
  refine runs_gp rfl (runs_i (by simp only [fexec, hs, if_pos hcw]; rfl) ?_)
  refine (runs_i rfl (runs_gp rfl (runs_nil ⟨?_, rfl, ⟨rfl, fun i => ?_, rfl, fun i hi => ?_, fun a ha => ?_⟩⟩)))
  · show datum d (rd (wr s.g.m (zx 8 (s.g.r rsp) - zx 8 8 + BitVec.ofInt 64 0) (if d = true then 8 else 4) (bits d (convert (fmtOf d) x))) (zx 8 (s.g.r rsp) - zx 8 8 + BitVec.ofInt 64 0) (if d = true then 8 else 4)) = _
    rw [rd_wr_same _ _ _ _ (by split <;> omega), datum_zx, datum_bits d (convert_has _ (okOf d) _)]
  · by_cases hi : i = 6
    · subst hi
      show zx 8 (zx 8 (s.g.r rsp) - zx 8 8) + zx 8 8 = s.g.r rsp
      rw [zx8, zx8]; exact sub8_add _
    · have : (Reg.tmp i = rsp) = False := tmp_rsp hi
      simp only [St.noFlags, St.setR, FS.setX, this, if_false]
  · simp [FS.setX, show i ≠ 0 by omega]
  · show wr s.g.m (zx 8 (s.g.r rsp) - zx 8 8 + BitVec.ofInt 64 0) (if d = true then 8 else 4) (bits d (convert (fmtOf d) x)) a = _
    rw [zx8, zx8, off0]
    refine wr_other _ _ _ _ _ fun h => below8 _ _ ha ?_
    unfold InBlk at *
    revert h; cases d <;> simp <;> omega

end Slimcc.FP
