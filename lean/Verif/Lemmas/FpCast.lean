import Verif.Lemmas.FloatOps
import Verif.Model.FpCast
import Verif.Spec.FpCode
import Verif.Lemmas.Leaf
/-! The texts of the cast table. -/
set_option autoImplicit false
namespace Slimcc.FP
open Slimcc.Spec Slimcc.Spec.FP Slimcc.X86 Slimcc.Ty Slimcc.Gen

theorem okOf (d : Bool) : Fmt.Ok (fmtOf d) := by cases d; exact width32.1; exact width64.1

theorem zx4_nat (w : Word) : (zx 4 w).toNat = w.toNat % 2 ^ 32 := by
  unfold zx
  rw [BitVec.toNat_setWidth, BitVec.toNat_setWidth]
  omega

theorem datum_f32 (w : Word) : datum false w = decode f32 32 (w.toNat % 2 ^ 32) := by
  unfold datum; rw [zx4_nat]; rfl
theorem datum_f64 (w : Word) : datum true w = decode f64 64 w.toNat := rfl

theorem datum_has (d : Bool) (w : Word) : (fmtOf d).has (datum d w) := by
  cases d
  · exact decode_has width32 _
  · exact decode_has width64 _

theorem bits_f32 {x : Fl} (h : f32.has x) : (bits false x).toNat = encode f32 32 x := by
  have := (decode_encode width32 h).2
  show (BitVec.ofNat 64 _).toNat = _
  rw [BitVec.toNat_ofNat, Nat.mod_eq_of_lt (by omega)]
theorem bits_f64 {x : Fl} (h : f64.has x) : (bits true x).toNat = encode f64 64 x := by
  have := (decode_encode width64 h).2
  show (BitVec.ofNat 64 _).toNat = _
  rw [BitVec.toNat_ofNat, Nat.mod_eq_of_lt (by omega)]

theorem datum_bits (d : Bool) {x : Fl} (h : (fmtOf d).has x) : datum d (bits d x) = x := by
  cases d
  · have h2 := decode_encode width32 h
    rw [datum_f32, bits_f32 h, Nat.mod_eq_of_lt (by omega)]
    exact h2.1
  · rw [datum_f64, bits_f64 h]
    exact (decode_encode width64 h).1

theorem zx4_merge (a b : Word) : zx 4 ((a >>> 32) <<< 32 ||| zx 4 b) = zx 4 b := by
  apply BitVec.eq_of_getLsbD_eq
  intro i hi
  simp only [zx, BitVec.getLsbD_setWidth, BitVec.getLsbD_or, BitVec.getLsbD_shiftLeft]
  by_cases h : i < 32
  · simp [h]
  · simp [h]

theorem datum_merge (d : Bool) (o w : Word) : datum d (merge d o w) = datum d w := by
  cases d
  · show decode f32 32 (zx 4 ((o >>> 32) <<< 32 ||| zx 4 w)).toNat = decode f32 32 (zx 4 w).toNat
    rw [zx4_merge]
  · rfl

theorem datum_set (s : FS) (d : Bool) (i : Nat) {x : Fl} (h : (fmtOf d).has x) : datum d ((s.setF d i x).xmm i) = x := by
  show datum d (if i = i then merge d (s.xmm i) (bits d x) else _) = x
  rw [if_pos rfl, datum_merge, datum_bits d h]

/-- float and double in %xmm0. -/
def fty (d : Bool) : FTy := if d then .double else .float

theorem inFp_iff (d : Bool) (x : Fl) (st : List Fl) (s : FS) : InFp (fty d) x st s ↔ datum d (s.xmm 0) = x ∧ s.st = st := by
  cases d
  · show _ ∧ _ ↔ _; rw [datum_f32]
  · show _ ∧ _ ↔ _; rw [datum_f64]

theorem fmt_fty (d : Bool) : (fty d).fmt = fmtOf d := by cases d <;> rfl

theorem ofInt_has (F : Fmt) (hF : Fmt.Ok F) (z : Int) : F.has (ofInt F z) := round_has F hF _ _ _

theorem toInt_word (z : Int) (h1 : -2 ^ 63 ≤ z) (h2 : z < 2 ^ 63) : (BitVec.ofInt 64 z).toInt = z := by
  rw [BitVec.toInt_ofInt, Int.bmod_eq_of_le] <;> norm_num <;> omega

variable {sym : Nat → Word}

theorem und_refl (s : FS) : Undisturbed s s := ⟨rfl, fun _ => rfl, rfl, fun _ _ => rfl, fun _ _ => rfl⟩

theorem und_setF (s : FS) (d : Bool) (x : Fl) : Undisturbed s (s.setF d 0 x) :=
  ⟨rfl, fun _ => rfl, rfl, fun i hi => if_neg (by omega), fun _ _ => rfl⟩

/-- Execution to the end, with a property of the last state. -/
def Runs (sym : Nat → Word) (l : List FLine) (k : Option Nat) (s : FS) (Q : FS → Prop) : Prop := ∃ s', frun sym l k s = some s' ∧ Q s'

theorem runs_nil {s : FS} {Q : FS → Prop} (h : Q s) : Runs sym [] none s Q := ⟨s, rfl, h⟩
theorem runs_i {i : FIns} {l : List FLine} {s s1 : FS} {Q : FS → Prop} (h : fexec sym i s = some s1) (hr : Runs sym l none s1 Q) :
    Runs sym (.i i :: l) none s Q := by
  obtain ⟨s', a, b⟩ := hr
  exact ⟨s', by rw [frun, h]; exact a, b⟩
theorem runs_gp {i : Ins} {l : List FLine} {s : FS} {g : St} {Q : FS → Prop} (h : exec sym i s.g = some g)
    (hr : Runs sym l none { s with g := g, pf := if keepsFlags i then s.pf else none } Q) : Runs sym (.i (.gp i) :: l) none s Q :=
  runs_i (by show Option.map _ _ = _; rw [h]; rfl) hr
theorem runs_lab {n : Nat} {l : List FLine} {s : FS} {Q : FS → Prop} (hr : Runs sym l none s Q) : Runs sym (.lab n :: l) none s Q := hr
theorem runs_jmp {n : Nat} {l : List FLine} {s : FS} {Q : FS → Prop} (hr : Runs sym l (some n) s Q) : Runs sym (.jmp n :: l) none s Q := hr
theorem runs_jcc {c : CC} {n : Nat} {l : List FLine} {s : FS} {f : Flags} {Q : FS → Prop} (h : s.g.f = some f)
    (hr : Runs sym l (if c.holds f then some n else none) s Q) : Runs sym (.jcc c n :: l) none s Q := by
  obtain ⟨s', a, b⟩ := hr
  refine ⟨s', ?_, b⟩
  rw [frun, h]
  dsimp only
  split at a
  · rename_i hc; rw [if_pos hc]; exact a
  · rename_i hc; rw [if_neg hc]; exact a

/-- To float and double from 32 bits. -/
theorem run_i32f (d : Bool) (z : Int) (s : FS) (h1 : -2 ^ 31 ≤ z) (h2 : z < 2 ^ 31) (hx : Low 4 z (s.g.r .ax)) :
    Runs sym (i32f d) none s fun s' => datum d (s'.xmm 0) = ofInt (fmtOf d) z ∧ s'.st = s.st ∧ Undisturbed s s' := by
  refine ⟨_, rfl, ?_, rfl, und_setF s d _⟩
  rw [datum_set s d 0 (ofInt_has _ (okOf d) _), sx4_val z _ hx (by omega), toInt_word z (by omega) (by omega)]

theorem run_i64f (d : Bool) (z : Int) (s : FS) (h1 : -2 ^ 63 ≤ z) (h2 : z < 2 ^ 63) (hx : s.g.r .ax = BitVec.ofInt 64 z) :
    Runs sym (i64f d) none s fun s' => datum d (s'.xmm 0) = ofInt (fmtOf d) z ∧ s'.st = s.st ∧ Undisturbed s s' := by
  refine ⟨_, rfl, ?_, rfl, und_setF s d _⟩
  rw [datum_set s d 0 (ofInt_has _ (okOf d) _), sx8, hx, toInt_word z (by omega) (by omega)]

theorem run_u32f (d : Bool) (z : Int) (s : FS) (h1 : 0 ≤ z) (h2 : z < 2 ^ 32) (hx : Low 4 z (s.g.r .ax)) :
    Runs sym (u32f d) none s fun s' => datum d (s'.xmm 0) = ofInt (fmtOf d) z ∧ s'.st = s.st ∧ Undisturbed s s' := by
  refine ⟨_, rfl, ?_, rfl, ⟨rfl, fun _ => rfl, rfl, fun i hi => if_neg (by omega), fun _ _ => rfl⟩⟩
  rw [datum_set _ d 0 (ofInt_has _ (okOf d) _), sx8]
  show ofInt _ (put 4 (s.g.r .ax) (zx 4 (s.g.r .ax))).toInt = _
  rw [show put 4 (s.g.r .ax) (zx 4 (s.g.r .ax)) = zx 4 (zx 4 (s.g.r .ax)) from rfl, zx_zx, zx4_val z _ hx (by omega), toInt_word z (by omega) (by omega)]

/-! Memory below the stack pointer. -/

theorem off0 (a : Word) : a + BitVec.ofInt 64 0 = a := by simp

theorem push_some (s : FS) (x : Fl) (h : s.st.length < 8) : s.push x = some { s with st := x :: s.st } := if_pos h

theorem below (sp a : Word) (i n : Nat) (h : i + n ≤ 24) (ha : ¬ InBlk (sp - 24) 24 a) : ¬ InBlk (sp - 24 + BitVec.ofNat 64 i) n a := by
  intro hb
  apply ha
  unfold InBlk at *
  have e : a - (sp - 24) = (a - (sp - 24 + BitVec.ofNat 64 i)) + BitVec.ofNat 64 i := by
    generalize sp - 24 = q
    generalize BitVec.ofNat 64 i = j
    bv_omega
  rw [e, BitVec.toNat_add, BitVec.toNat_ofNat]
  have : i % 2 ^ 64 = i := Nat.mod_eq_of_lt (by omega)
  rw [this]
  omega

theorem below8 (sp a : Word) (ha : ¬ InBlk (sp - 24) 24 a) : ¬ InBlk (sp - 8) 8 a := by
  have := below sp a 16 8 (by omega) ha
  have e : sp - 24 + BitVec.ofNat 64 16 = sp - 8 := by
    rw [BitVec.sub_eq_add_neg, BitVec.sub_eq_add_neg, BitVec.add_assoc]; rfl
  rwa [e] at this

theorem sub_add8 (sp : Word) : sp - 8 + 8 = sp := BitVec.sub_add_cancel _ _

theorem rd_push4 (m : Mem) (a v : Word) : rd (wr m a 8 v) (a + BitVec.ofInt 64 0) 4 = zx 4 v := by
  rw [off0, rd_prefix _ a 8 4 (by omega) (by omega), rd_wr_same _ _ _ _ (by omega), zx8]
theorem rd_push8 (m : Mem) (a v : Word) : rd (wr m a 8 v) (a + BitVec.ofInt 64 0) 8 = v := by
  rw [off0, rd_wr_same _ _ _ _ (by omega), zx8]
theorem sx_zx4 (v : Word) : sx 4 (zx 4 v) = sx 4 v := by
  apply sx_congr
  rw [sw_zx _ _ _ (Nat.le_refl _)]

/-- push; fild; pop -/
theorem runs_pushed (sz : Nat) (hsz : sz = 4 ∨ sz = 8) (z : Int) (s : FS) (hst : s.st.length < 8) (hx : (sx sz (s.g.r .ax)).toInt = z) :
    Runs sym [.i .push, .i (.fild sz (at_ 0)), .i .pop] none s fun s' => s'.st = ofInt f80 z :: s.st ∧ Undisturbed s s' := by
  refine runs_i rfl (runs_i (push_some _ _ hst) (runs_i rfl (runs_nil ⟨?_, ?_⟩)))
  · show ofInt f80 (sx sz (rd (wr s.g.m (s.g.r rsp - 8) 8 (s.g.r .ax)) ((s.g.r rsp - 8) + BitVec.ofInt 64 0) sz)).toInt :: s.st = _
    rcases hsz with rfl | rfl
    · rw [rd_push4, sx_zx4, hx]
    · rw [rd_push8, hx]
  · refine ⟨rfl, fun i => ?_, rfl, fun _ _ => rfl, fun a ha => wr_other _ _ _ _ _ (below8 _ _ ha)⟩
    by_cases hi : i = 6
    · subst hi
      show s.g.r rsp - 8 + 8 = s.g.r rsp
      exact sub_add8 _
    · have : (Reg.tmp i = rsp) = False := by simp [rsp, hi]
      simp [St.setR, this]

theorem run_i32f80 (z : Int) (s : FS) (hst : s.st.length < 8) (h1 : -2 ^ 31 ≤ z) (h2 : z < 2 ^ 31) (hx : Low 4 z (s.g.r .ax)) :
    Runs sym i32f80 none s fun s' => s'.st = ofInt f80 z :: s.st ∧ Undisturbed s s' :=
  runs_pushed 4 (.inl rfl) z s hst (by rw [sx4_val z _ hx (by omega), toInt_word z (by omega) (by omega)])

theorem run_i64f80 (z : Int) (s : FS) (hst : s.st.length < 8) (h1 : -2 ^ 63 ≤ z) (h2 : z < 2 ^ 63) (hx : s.g.r .ax = BitVec.ofInt 64 z) :
    Runs sym i64f80 none s fun s' => s'.st = ofInt f80 z :: s.st ∧ Undisturbed s s' :=
  runs_pushed 8 (.inr rfl) z s hst (by rw [sx8, hx, toInt_word z (by omega) (by omega)])

theorem run_u32f80 (z : Int) (s : FS) (hst : s.st.length < 8) (h1 : 0 ≤ z) (h2 : z < 2 ^ 32) (hx : Low 4 z (s.g.r .ax)) :
    Runs sym u32f80 none s fun s' => s'.st = ofInt f80 z :: s.st ∧ Undisturbed s s' := by
  refine runs_gp rfl ?_
  have h := runs_pushed (sym := sym) 8 (.inr rfl) z { s with g := s.g.setR .ax (put 4 (s.g.r .ax) (zx 4 (s.g.r .ax))) } hst (by
    show (sx 8 (zx 4 (zx 4 (s.g.r .ax)))).toInt = z
    rw [sx8, zx_zx, zx4_val z _ hx (by omega), toInt_word z (by omega) (by omega)])
  obtain ⟨s', a, b, c⟩ := h
  exact ⟨s', a, b, ⟨c.bp, c.tmp, c.cw, c.xmm, c.mem⟩⟩

/-! Unsigned 64-bit integers. -/

theorem log2_of (m k : Nat) (h1 : 2 ^ k ≤ m) (h2 : m < 2 ^ (k + 1)) : m.log2 = k :=
  (Nat.log2_eq_iff (by have : 0 < 2 ^ k := by positivity
                       omega)).2 ⟨h1, h2⟩

/-- A number of the format, doubled. -/
theorem add_self (F : Fmt) (m : Nat) (e : Int) (hp : 2 ≤ F.p) (h1 : 2 ^ (F.p - 1) ≤ m) (h2 : m < 2 ^ F.p) (h3 : F.emin ≤ e) (h4 : e + 1 ≤ F.emax) :
    add F (.fin false m e) (.fin false m e) = .fin false m (e + 1) := by
  have hpp := pow_pred (p := F.p) (by omega)
  have hP : 0 < 2 ^ (F.p - 1) := by positivity
  unfold add
  dsimp only
  rw [min_self, sub_self, show ((0 : ℤ).toNat) = 0 from rfl, pow_zero, Nat.mul_one]
  simp only [Bool.false_eq_true, if_false, Int.one_mul]
  rw [if_neg (by omega), decide_eq_false (by omega), show ((m : ℤ) + m).natAbs = 2 * m by omega]
  have hl : (2 * m).log2 = F.p := log2_of _ _ (by omega) (by rw [pow_succ]; omega)
  unfold round
  rw [if_neg (by omega), hl]
  have hk : max ((F.p : ℤ) + 1 - F.p) (F.emin - e) = 1 := by omega
  simp only [hk]
  have hr : rne (2 * m) (1 : ℤ).toNat = m := by
    show rne (2 * m) 1 = m
    unfold rne
    rw [if_neg (by omega)]; omega
  rw [if_pos (show (0 : ℤ) ≤ 1 by omega), hr, if_neg (show ¬ m = 2 ^ F.p by omega), if_neg (by dsimp only; omega)]

/-- Halving with the bit lost kept, then doubling, rounds like the number itself. -/
theorem sticky_add (F : Fmt) (hF : Fmt.Ok F) (hp : F.p ≤ 61) (hm : F.emin < 0 ∧ F.emin < 63 - F.p) (hM : 65 ≤ F.emax) (n : Nat) (h1 : 2 ^ 63 ≤ n) (h2 : n < 2 ^ 64) :
    add F (ofInt F (n / 2 ||| n % 2 : Nat)) (ofInt F (n / 2 ||| n % 2 : Nat)) = ofInt F n := by
  have hp2 := hF.1
  have hst := rne_sticky n (63 - F.p) (by omega)
  have hh : 2 ^ 62 ≤ (n / 2 ||| n % 2) ∧ (n / 2 ||| n % 2) < 2 ^ 63 := by
    refine ⟨le_trans (by omega) Nat.left_le_or, Nat.or_lt_two_pow (by omega) (by omega)⟩
  generalize n / 2 ||| n % 2 = h at *
  have e1 : ofInt F (h : Nat) = round F false h 0 := by
    unfold ofInt; rw [decide_eq_false (by omega), Int.natAbs_natCast]
  have e2 : ofInt F (n : Nat) = round F false n 0 := by
    unfold ofInt; rw [decide_eq_false (by omega), Int.natAbs_natCast]
  have l1 : h.log2 = 62 := log2_of _ _ hh.1 hh.2
  have l2 : n.log2 = 63 := log2_of _ _ h1 h2
  have r1 : round F false h 0 = .fin false (if rne h (63 - F.p) = 2 ^ F.p then 2 ^ (F.p - 1) else rne h (63 - F.p))
      (if rne h (63 - F.p) = 2 ^ F.p then 64 - F.p else 63 - F.p) := by
    unfold round
    rw [if_neg (by omega), l1]
    have hk : max (((62 : Nat) : ℤ) + 1 - F.p) (F.emin - 0) = 63 - F.p := by push_cast; omega
    simp only [hk]
    rw [if_pos (show (0 : ℤ) ≤ 63 - F.p by omega), show ((63 : ℤ) - F.p).toNat = 63 - F.p by omega]
    by_cases hq : rne h (63 - F.p) = 2 ^ F.p
    · rw [if_pos hq, if_pos hq, if_pos hq, if_neg (by dsimp only; omega)]; congr 1; dsimp only; omega
    · rw [if_neg hq, if_neg hq, if_neg hq, if_neg (by dsimp only; omega)]; congr 1; dsimp only; omega
  have r2 : round F false n 0 = .fin false (if rne h (63 - F.p) = 2 ^ F.p then 2 ^ (F.p - 1) else rne h (63 - F.p))
      ((if rne h (63 - F.p) = 2 ^ F.p then (64 : ℤ) - F.p else 63 - F.p) + 1) := by
    unfold round
    rw [if_neg (by omega), l2]
    have hk : max (((63 : Nat) : ℤ) + 1 - F.p) (F.emin - 0) = 64 - F.p := by push_cast; omega
    simp only [hk]
    rw [if_pos (show (0 : ℤ) ≤ 64 - F.p by omega), show ((64 : ℤ) - F.p).toNat = 63 - F.p + 1 by omega, ← hst]
    by_cases hq : rne h (63 - F.p) = 2 ^ F.p
    · rw [if_pos hq, if_pos hq, if_pos hq, if_neg (by dsimp only; omega)]; congr 1; dsimp only; omega
    · rw [if_neg hq, if_neg hq, if_neg hq, if_neg (by dsimp only; omega)]; congr 1; dsimp only; omega
  have hhas := round_has F hF false h 0
  rw [e1, e2, r2]
  rw [r1] at hhas ⊢
  obtain ⟨a, b, c, d⟩ := hhas
  refine add_self F _ _ hp2 ?_ a b ?_
  · rcases d with d | d
    · exact d
    · exfalso; split at d <;> omega
  · split <;> omega

end Slimcc.FP
