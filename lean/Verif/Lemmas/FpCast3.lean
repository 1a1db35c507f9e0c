import Verif.Lemmas.FpCast2
/-! Floating types to integers and to each other. -/
set_option autoImplicit false
namespace Slimcc.FP
open Slimcc.Spec Slimcc.Spec.CTy Slimcc.Spec.FP Slimcc.X86 Slimcc.Ty Slimcc.Gen
variable {sym : Nat → Word}

theorem intBits_in (n : Nat) (z : Int) (h1 : -2 ^ (8 * n - 1) ≤ z) (h2 : z < 2 ^ (8 * n - 1)) : intBits n (some z) = BitVec.ofInt 64 z := by
  unfold intBits; dsimp only; rw [if_pos ⟨h1, h2⟩]

theorem sx_zx (n : Nat) (v : Word) : sx n (zx n v) = sx n v := sx_congr _ _ _ (sw_zx _ _ _ (Nat.le_refl _))

theorem put4 (o v : Word) : put 4 o v = zx 4 v := rfl
theorem put8 (o v : Word) : put 8 o v = v := rfl

theorem low4_zx {z : Int} {x : Word} (h : Low 4 z x) : Low 4 z (zx 4 x) := h.zx

/-- cvttss2sil and cvttsd2sil with a following extension, or none. -/
theorem run_cvtt4 (d : Bool) (t : ℤ) (s : FS) (ht : roundInt 3 (datum d (s.xmm 0)) = some t) (h1 : -2 ^ 31 ≤ t) (h2 : t < 2 ^ 31) :
    Runs sym (fi32 d) none s fun s' => Low 4 t (s'.g.r .ax) ∧ s'.st = s.st ∧ Undisturbed s s' := by
  refine runs_i rfl (runs_nil ⟨?_, rfl, ⟨rfl, fun _ => rfl, rfl, fun _ _ => rfl, fun _ _ => rfl⟩⟩)
  show Low 4 t (put 4 (s.g.r .ax) (intBits 4 (roundInt 3 (datum d (s.xmm 0)))))
  rw [ht, intBits_in 4 t (by simpa using h1) (by simpa using h2), put4]
  exact (Low.of_eq 4 t (by omega)).zx

theorem run_cvtt_ext (d : Bool) (T : CTy) (t : ℤ) (s : FS) (ht : roundInt 3 (datum d (s.xmm 0)) = some t) (hs : (ity T).size ≤ 2)
    (hT : InRange (cty (ity T)) t) (h1 : -2 ^ 31 ≤ t) (h2 : t < 2 ^ 31) (hw : (ity T).wf = true) :
    Runs sym [.i (.cvtt d 4 0 .ax), .i (.gp (.movx (!(ity T).uns) (ity T).size 4 (.reg .ax) .ax))] none s
      fun s' => Low 4 t (s'.g.r .ax) ∧ s'.st = s.st ∧ Undisturbed s s' := by
  refine runs_i rfl (runs_gp rfl (runs_nil ⟨?_, rfl, ⟨rfl, fun _ => rfl, rfl, fun _ _ => rfl, fun _ _ => rfl⟩⟩))
  have e : ∀ x : Word, x = put 4 (s.g.r .ax) (intBits 4 (roundInt 3 (datum d (s.xmm 0)))) →
      Low 4 t (put 4 x (if (!(ity T).uns) = true then sx (ity T).size (zx (ity T).size x) else zx (ity T).size x)) := by
    intro x hx
    rw [ht, intBits_in 4 t (by simpa using h1) (by simpa using h2), put4] at hx
    have hx4 : Low 4 t x := by rw [hx]; exact (Low.of_eq 4 t (by omega)).zx
    have := ext_low (ity T) t x hw hT (hx4.mono (by omega) (by omega))
    rw [put4]
    have e2 : (if (!(ity T).uns) = true then sx (ity T).size (zx (ity T).size x) else zx (ity T).size x) = BitVec.ofInt 64 t := by
      rw [← this, sx_zx]; cases (ity T).uns <;> rfl
    rw [e2]
    exact (Low.of_eq 4 t (by omega)).zx
  exact e _ rfl

theorem run_cvtt8 (d : Bool) (t : ℤ) (s : FS) (ht : roundInt 3 (datum d (s.xmm 0)) = some t) (h1 : -2 ^ 63 ≤ t) (h2 : t < 2 ^ 63) :
    Runs sym (fi64 d) none s fun s' => s'.g.r .ax = BitVec.ofInt 64 t ∧ s'.st = s.st ∧ Undisturbed s s' := by
  refine runs_i rfl (runs_nil ⟨?_, rfl, ⟨rfl, fun _ => rfl, rfl, fun _ _ => rfl, fun _ _ => rfl⟩⟩)
  show put 8 (s.g.r .ax) (intBits 8 (roundInt 3 (datum d (s.xmm 0)))) = _
  rw [ht, intBits_in 8 t (by simpa using h1) (by simpa using h2), put8]

/-! float and double to unsigned 64-bit integers -/

/-- 2 ^ 63 in the formats. -/
theorem two63 (d : Bool) : datum d (if d then 0x43e0000000000000 else zx 4 0x5F000000) = .fin false (2 ^ ((fmtOf d).p - 1)) (64 - (fmtOf d).p) := by
  cases d <;> decide +kernel

/-- The difference from 2 ^ 63 of a number from there to 2 ^ 64 is exact. -/
theorem sub_two63 (F : Fmt) (hF : Fmt.Ok F) (hp : F.p ≤ 64) (hm : F.emin + 63 ≤ 64 - F.p) (hm2 : F.emin < 0 ∧ F.emin < 64 - F.p) (hM : 64 ≤ F.emax) (x : Fl) (v : ℚ) (hx : F.has x)
    (hv : x.val = some v) (h1 : 2 ^ 63 ≤ v) (h2 : v < 2 ^ 64) :
    (sub F x (.fin false (2 ^ (F.p - 1)) (64 - F.p))).val = some (v - 2 ^ 63) := by
  have hp2 := hF.1
  have hpp := pow_pred (p := F.p) (by omega)
  have hy : (Fl.fin false (2 ^ (F.p - 1)) (64 - F.p)).val = some (2 ^ 63) := by
    rw [val_fin, two_pow_nat, Option.some.injEq, mul_assoc, zpow_pow]
    rw [show (64 : ℤ) - F.p + ((F.p - 1 : Nat) : ℤ) = ((63 : Nat) : ℤ) by omega, zpow_natCast]; simp [sgn]
  have h := add_rounded F hF hv (neg_val hy)
  rw [← sub_eq_add_neg] at h
  cases x with
  | nan => simp [Fl.val] at hv
  | inf _ => simp [Fl.val] at hv
  | fin n m e =>
  rw [val_fin, Option.some.injEq] at hv
  obtain ⟨a, b, c, dd⟩ := hx
  have hpos : (0 : ℚ) ≤ m * 2 ^ e := by positivity
  have hn : n = false := by
    cases n with
    | false => rfl
    | true => exfalso; simp only [sgn, if_true] at hv; linarith
  subst hn
  simp only [sgn, Bool.false_eq_true, if_false, one_mul] at hv
  have hlt : (m : ℚ) < 2 ^ F.p := by rw [← two_pow_nat]; exact_mod_cast a
  have he1 : 64 - (F.p : ℤ) ≤ e := by
    by_contra hc
    have : (2 : ℚ) ^ (e + F.p) ≤ 2 ^ ((63 : Nat) : ℤ) := zpow_le (by omega)
    rw [zpow_natCast, ← zpow_pow] at this
    have h3 := mul_lt_mul_of_pos_right hlt (two_zpow_pos e)
    linarith
  have hm1 : 2 ^ (F.p - 1) ≤ m := by rcases dd with dd | dd; exact dd; omega
  have hge : (2 : ℚ) ^ (F.p - 1) ≤ m := by rw [← two_pow_nat]; exact_mod_cast hm1
  have he2 : e ≤ 64 - (F.p : ℤ) := by
    by_contra hc
    have : (2 : ℚ) ^ ((64 : Nat) : ℤ) ≤ 2 ^ (e + (F.p - 1 : Nat)) := zpow_le (by omega)
    rw [zpow_natCast, ← zpow_pow] at this
    have h3 := mul_le_mul_of_nonneg_right hge (two_zpow_pos e).le
    linarith
  have he : e = 64 - F.p := le_antisymm he2 he1
  obtain ⟨y, y1, y2⟩ := representable F false (m - 2 ^ (F.p - 1)) e hF (by omega) (by omega) (by omega)
  refine Rounded.exact hF h y1 ?_
  rw [y2, val_fin, Option.some.injEq, Nat.cast_sub hm1, two_pow_nat, ← hv]
  have h63 : (2 : ℚ) ^ (F.p - 1) * 2 ^ e = 2 ^ 63 := by
    rw [zpow_pow, show e + ((F.p - 1 : Nat) : ℤ) = ((63 : Nat) : ℤ) by omega, zpow_natCast]
  rw [← h63]; simp only [sgn, Bool.false_eq_true, if_false]; ring

theorem trunc_sub (v : ℚ) (h : 2 ^ 63 ≤ v) : truncated (v - 2 ^ 63) = truncated v - 2 ^ 63 := by
  unfold truncated
  rw [if_pos (by linarith), if_pos (by linarith)]
  have : v - 2 ^ 63 = v - ((2 ^ 63 : ℤ) : ℚ) := by push_cast; rfl
  rw [this, Int.floor_sub_intCast]

theorem trunc_lt (v : ℚ) (n : ℤ) (hn : 0 < n) : truncated v < n ↔ v < n := by
  unfold truncated
  have hn' : (0 : ℚ) < n := by exact_mod_cast hn
  split
  · exact Int.floor_lt
  · rename_i h
    have h1 : v < 0 := not_le.1 h
    constructor
    · intro _; linarith
    · intro _
      have : ⌈v⌉ ≤ 0 := Int.ceil_le.2 (by simpa using h1.le)
      omega

theorem sar63 (y : Word) : y.sshiftRight 63 = if y.toInt < 0 then BitVec.allOnes 64 else 0 := by
  have hmsb : y.msb = decide (y.toInt < 0) := by rw [BitVec.msb_eq_toInt]
  have hb : ∀ i, i < 64 → (y.sshiftRight 63).getLsbD i = y.msb := by
    intro i hi
    rw [BitVec.getLsbD_sshiftRight]
    by_cases h0 : 63 + i < 64
    · have : i = 0 := by omega
      subst this
      rw [BitVec.msb_eq_getLsbD_last]; simp
    · rw [if_neg h0]; simp; omega
  apply BitVec.eq_of_getLsbD_eq
  intro i hi
  rw [hb i hi, hmsb]
  by_cases h : y.toInt < 0
  · rw [if_pos h, decide_eq_true h, BitVec.getLsbD_allOnes, decide_eq_true hi]
  · rw [if_neg h, decide_eq_false h]; simp

theorem datum_sub (s : FS) (d : Bool) (a b : Fl) : datum d (merge d (s.xmm 0) (bits d (sub (fmtOf d) a b))) = sub (fmtOf d) a b := by
  rw [datum_merge]; exact datum_bits d (add_has _ (okOf d) _ _)

theorem toNat_ofInt64 (z : ℤ) (h0 : 0 ≤ z) (h1 : z < 2 ^ 64) : (BitVec.ofInt 64 z).toNat = z.toNat := by
  rw [BitVec.toNat_ofInt]; congr 1; exact Int.emod_eq_of_lt h0 (by simpa using h1)

theorem or_top (t : ℤ) (h1 : 2 ^ 63 ≤ t) (h2 : t < 2 ^ 64) : BitVec.ofInt 64 (t - 2 ^ 63) ||| BitVec.ofNat 64 (2 ^ 63) = BitVec.ofInt 64 t := by
  apply BitVec.eq_of_toNat_eq
  rw [BitVec.toNat_or, toNat_ofInt64 _ (by omega) (by omega), toNat_ofInt64 _ (by omega) (by omega), BitVec.toNat_ofNat,
    Nat.mod_eq_of_lt (by omega), Nat.or_comm]
  have := Nat.two_pow_add_eq_or_of_lt (i := 63) (b := (t - 2 ^ 63).toNat) (by omega) 1
  rw [Nat.mul_one] at this
  rw [← this]; omega

theorem run_fu64 (d : Bool) (v : ℚ) (s : FS) (hv : (datum d (s.xmm 0)).val = some v) (h1 : 0 ≤ truncated v) (h2 : truncated v < 2 ^ 64) :
    Runs sym (fu64 d) none s fun s' => s'.g.r .ax = BitVec.ofInt 64 (truncated v) ∧ s'.st = s.st ∧ Undisturbed s s' := by
  have hri := roundInt_trunc hv
  have hx1 : ∀ y : Word, y = (if d then s.g.r .ax else s.g.r .ax) → True := fun _ _ => trivial
  generalize hc : intBits 8 (roundInt 3 (datum d (s.xmm 0))) = c
  have hfin : ∀ r : Fl, r = sub (fmtOf d) (datum d (s.xmm 0)) (.fin false (2 ^ ((fmtOf d).p - 1)) (64 - (fmtOf d).p)) →
      (intBits 8 (roundInt 3 r) &&& c.sshiftRight 63) ||| c = BitVec.ofInt 64 (truncated v) := by
    intro r hr
    by_cases hlt : truncated v < 2 ^ 63
    · rw [hri, intBits_in 8 _ (by simp; omega) (by simpa using hlt)] at hc
      rw [← hc, sar63, toInt_word _ (by omega) hlt, if_neg (by omega)]
      simp
    · have hv63 : 2 ^ 63 ≤ v := by
        by_contra hh
        apply hlt
        exact (trunc_lt v (2 ^ 63) (by norm_num)).2 (by push_cast; exact not_le.1 hh)
      have hv64 : v < 2 ^ 64 := by
        have := (trunc_lt v (2 ^ 64) (by norm_num)).1 h2
        push_cast at this; exact this
      have hsub : r.val = some (v - 2 ^ 63) := by
        rw [hr]
        cases d
        · exact sub_two63 f32 width32.1 (by decide) (by decide) ⟨by decide, by decide⟩ (by decide) _ v (datum_has false _) hv hv63 hv64
        · exact sub_two63 f64 width64.1 (by decide) (by decide) ⟨by decide, by decide⟩ (by decide) _ v (datum_has true _) hv hv63 hv64
      have hr3 := roundInt_trunc hsub
      rw [trunc_sub v hv63] at hr3
      have hcc : c = BitVec.ofNat 64 (2 ^ 63) := by
        rw [← hc, hri]; unfold intBits; dsimp only
        rw [if_neg (by simp; omega)]
      have hone : c.sshiftRight 63 = BitVec.allOnes 64 := by rw [hcc]; decide
      rw [hr3, intBits_in 8 _ (by simp; omega) (by simp; omega), hone, BitVec.and_allOnes, hcc, or_top _ (by omega) h2]
  cases d with
  | true =>
    refine runs_i rfl (runs_gp rfl (runs_gp rfl (runs_i rfl (runs_i rfl (runs_i rfl (runs_gp rfl (runs_gp rfl (runs_gp rfl (runs_nil ⟨?_, rfl, ?_⟩)))))))))
    · have e : datum true 4890909195324358656 = _ := two63 true
      simp only [FS.setF, FS.setX, St.setR, St.noFlags, put8, aluOp, X86.get, zx8, shOp, sx8, reduceCtorEq, if_false, if_true]
      rw [datum_sub, hc, e]
      exact hfin _ rfl
    · exact ⟨rfl, fun _ => rfl, rfl, fun i hi => by simp [FS.setF, FS.setX, show i ≠ 0 by omega, show i ≠ 1 by omega], fun _ _ => rfl⟩
  | false =>
    refine runs_i rfl (runs_gp rfl (runs_gp rfl (runs_i rfl (runs_i rfl (runs_i rfl (runs_gp rfl (runs_gp rfl (runs_gp rfl (runs_nil ⟨?_, rfl, ?_⟩)))))))))
    · have e : datum false (zx 4 0x5F000000) = _ := two63 false
      simp only [FS.setF, FS.setX, St.setR, St.noFlags, put8, put4, aluOp, X86.get, zx8, shOp, sx8, reduceCtorEq, if_false, if_true, zx_zx,
        Bool.false_eq_true]
      rw [datum_sub, hc, e]
      exact hfin _ rfl
    · exact ⟨rfl, fun _ => rfl, rfl, fun i hi => by simp [FS.setF, FS.setX, show i ≠ 0 by omega, show i ≠ 1 by omega], fun _ _ => rfl⟩

/-! long double to integers -/

theorem or_c00_rc (cw : BitVec 16) (x : Word) (h : ∀ i, i < 16 → x.getLsbD i = (cw.getLsbD i || (0xc00#64).getLsbD i)) :
    (x.setWidth 16).extractLsb' 10 2 = 3#2 := by
  apply BitVec.eq_of_getLsbD_eq
  intro i hi
  rw [BitVec.getLsbD_extractLsb', BitVec.getLsbD_setWidth, decide_eq_true hi, h _ (by omega)]
  have : i = 0 ∨ i = 1 := by omega
  rcases this with rfl | rfl <;> simp

theorem below24 (sp a : Word) (i : ℤ) (n : Nat) (h0 : 0 ≤ i) (h : i + n ≤ 24) (ha : ¬ InBlk (sp - 24) 24 a) : ¬ InBlk (sp - 24 + BitVec.ofInt 64 i) n a := by
  obtain ⟨k, rfl⟩ := Int.eq_ofNat_of_zero_le h0
  rw [BitVec.ofInt_natCast]; exact below sp a k n (by omega) ha

theorem disj_int (q : Word) (i : ℤ) (n : Nat) (j : ℤ) (k : Nat) (h : i + n ≤ j ∨ j + k ≤ i) (hi : 0 ≤ i ∧ i < 64) (hj : 0 ≤ j ∧ j < 64) (hn : n < 64) (hk : k < 64) :
    Disj (q + BitVec.ofInt 64 i) n (q + BitVec.ofInt 64 j) k := by
  obtain ⟨a, rfl⟩ := Int.eq_ofNat_of_zero_le hi.1
  obtain ⟨b, rfl⟩ := Int.eq_ofNat_of_zero_le hj.1
  exact disj_off q a n b k (by omega) (by omega) (by omega) hn hk

theorem sub_add24 (sp : Word) : sp - 24 + 24 = sp := BitVec.sub_add_cancel _ _

theorem zx2_bits (x : Word) (i : Nat) (h : i < 16) : (zx 2 x).getLsbD i = x.getLsbD i := by
  unfold zx
  rw [BitVec.getLsbD_setWidth, BitVec.getLsbD_setWidth, decide_eq_true (show i < 8 * 2 by omega), decide_eq_true (show i < 64 by omega)]; simp

theorem cw_back (cw : BitVec 16) : (zx 2 (cw.setWidth 64)).setWidth 16 = cw := by
  apply BitVec.eq_of_getLsbD_eq
  intro i hi
  rw [BitVec.getLsbD_setWidth, zx2_bits _ _ hi, BitVec.getLsbD_setWidth, decide_eq_true hi, decide_eq_true (show i < 64 by omega)]; simp

/-- What the bytes at the stack pointer hold when the load is reached. -/
theorem run_f80int (sz : Nat) (hsz : sz ≤ 8) (ld : Ins) (x : Fl) (st : List Fl) (s : FS) (hs : s.st = x :: st) (Q : Word → Prop)
    (hld : ∀ g : St, rd g.m (g.r rsp) sz = zx sz (intBits sz (roundInt 3 x)) → ∃ w, exec sym ld g = some (g.setR .ax w) ∧ Q w) :
    Runs sym (f80int sz ld) none s fun s' => Q (s'.g.r .ax) ∧ s'.st = st ∧ Undisturbed s s' := by
  show Runs sym [.i (.gp (.alu .sub 8 (.imm 24) (.reg rsp))), .i (.fnstcw (at_ 14)), .i (.gp (.movx false 2 4 (.mem (at_ 14)) .ax)),
    .i (.gp (.alu .or 2 (.imm 0xc00) (.reg .ax))), .i (.gp (.mov 2 (.reg .ax) (.mem (at_ 12)))), .i (.fldcw (at_ 12)),
    .i (.fistp sz (at_ 0)), .i (.fldcw (at_ 14)), .i (.gp ld), .i (.gp (.alu .add 8 (.imm 24) (.reg rsp)))] none s _
  generalize hsp : s.g.r rsp - 24 = sp
  refine runs_gp rfl ?_
  refine runs_i rfl (runs_gp rfl (runs_gp rfl (runs_gp rfl (runs_i rfl ?_))))
  simp only [at_, ea, St.setR, St.noFlags, put8, put4, aluOp, X86.get, zx8, reduceCtorEq, if_false, if_true, rsp, hs] at hsp ⊢
  rw [hsp]
  generalize hm0 : wr s.g.m (sp + BitVec.ofInt 64 14) 2 (BitVec.setWidth 64 s.cw) = m0
  have hr0 : rd m0 (sp + BitVec.ofInt 64 14) 2 = zx 2 (s.cw.setWidth 64) := by rw [← hm0, rd_wr_same _ _ _ _ (by omega)]
  rw [hr0]
  generalize hy : (put 2 (zx 4 (zx 2 (BitVec.setWidth 64 s.cw))) (zx 2 (zx 4 (zx 2 (BitVec.setWidth 64 s.cw))) ||| zx 2 3072)) = y
  have hyb : ∀ i, i < 16 → y.getLsbD i = (s.cw.getLsbD i || (0xc00#64).getLsbD i) := by
    intro i hi
    rw [← hy]
    unfold put
    rw [if_neg (by decide), if_neg (by decide)]
    rw [BitVec.getLsbD_or, zx2_bits _ _ hi, BitVec.getLsbD_or, zx2_bits _ _ hi, zx2_bits _ _ hi, BitVec.getLsbD_shiftLeft]
    rw [show (zx 4 (zx 2 (BitVec.setWidth 64 s.cw))).getLsbD i = s.cw.getLsbD i by
      unfold zx
      rw [BitVec.getLsbD_setWidth, BitVec.getLsbD_setWidth, BitVec.getLsbD_setWidth, BitVec.getLsbD_setWidth, BitVec.getLsbD_setWidth,
        decide_eq_true (show i < 8 * 2 by omega), decide_eq_true (show i < 8 * 4 by omega), decide_eq_true (show i < 64 by omega)]
      simp]
    simp [show i < 16 by omega]
  generalize hm1 : wr m0 (sp + BitVec.ofInt 64 12) 2 (zx 2 y) = m1
  have hr1 : rd m1 (sp + BitVec.ofInt 64 12) 2 = zx 2 y := by rw [← hm1, rd_wr_same _ _ _ _ (by omega), zx_zx]
  rw [hr1]
  have hrc : ((zx 2 y).setWidth 16).extractLsb' 10 2 = 3#2 := or_c00_rc s.cw _ fun i hi => by rw [zx2_bits _ _ hi]; exact hyb i hi
  generalize (zx 2 y).setWidth 16 = cw1 at hrc
  refine runs_i rfl (runs_i rfl ?_)
  simp only [ea, reduceCtorEq, if_false, if_true]
  rw [off0]
  rw [show cw1.extractLsb' 10 2 = (3 : BitVec 2) from hrc]
  generalize hm2 : wr m1 sp sz (intBits sz (roundInt 3 x)) = m2
  have hr2 : rd m2 (sp + BitVec.ofInt 64 14) 2 = zx 2 (s.cw.setWidth 64) := by
    have d1 := disj_int sp 0 sz 14 2 (by omega) (by omega) (by omega) (by omega) (by omega)
    have d2 := disj_int sp 12 2 14 2 (by omega) (by omega) (by omega) (by omega) (by omega)
    rw [off0] at d1
    rw [← hm2, rd_wr_disj _ _ _ _ _ _ (by omega) d1, ← hm1, rd_wr_disj _ _ _ _ _ _ (by omega) d2, hr0]
  rw [hr2, cw_back]
  have hmem : ∀ a, ¬ InBlk sp 24 a → m2 a = s.g.m a := by
    intro a ha
    have hb := fun i n h0 h => below24 (s.g.r rsp) a i n h0 h (by rw [show s.g.r rsp - 24 = sp from hsp]; exact ha)
    rw [show s.g.r rsp - 24 = sp from hsp] at hb
    have b0 := hb 0 sz (by omega) (by omega)
    rw [off0] at b0
    rw [← hm2, wr_other _ _ _ _ _ b0, ← hm1, wr_other _ _ _ _ _ (hb 12 2 (by omega) (by omega)), ← hm0, wr_other _ _ _ _ _ (hb 14 2 (by omega) (by omega))]
  generalize hg : ({ r := fun q => if q = Reg.ax then y else if q = Reg.ax then zx 4 (zx 2 (BitVec.setWidth 64 s.cw)) else if q = Reg.tmp 6 then sp else s.g.r q, m := m2, f := none } : St) = g
  have hgm : g.m = m2 := by rw [← hg]
  have hgr : g.r rsp = sp := by rw [← hg]; rfl
  have hgo : ∀ q, q ≠ .ax → q ≠ rsp → g.r q = s.g.r q := by
    intro q h1 h2; rw [← hg]; simp only [rsp] at h2; simp [h1, h2]
  obtain ⟨w, hw, hq⟩ := hld g (by rw [hgm, hgr, ← hm2, rd_wr_same _ _ _ _ hsz])
  refine runs_gp hw (runs_gp rfl (runs_nil ⟨?_, rfl, ⟨?_, fun i => ?_, rfl, fun _ _ => rfl, fun a ha => ?_⟩⟩))
  · exact hq
  · exact hgo .bp (by simp) (by simp [rsp])
  · by_cases hi : i = 6
    · subst hi
      show zx 8 (g.r rsp) + zx 8 24 = s.g.r rsp
      rw [zx8, zx8, hgr, ← hsp]; exact sub_add24 _
    · have : (Reg.tmp i = Reg.tmp 6) = False := by simp [hi]
      simp only [St.noFlags, St.setR, this, if_false, reduceCtorEq]
      exact hgo _ (by simp) (by simp [rsp, hi])
  · show g.m a = _
    rw [hgm]
    apply hmem
    rw [← hsp]; exact ha

end Slimcc.FP
