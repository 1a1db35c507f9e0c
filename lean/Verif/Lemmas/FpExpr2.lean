import Verif.Lemmas.FpExpr
import Verif.Lemmas.MemCopy
/-! Pieces of the code of floating expressions: constants, negation, operators, comparisons. -/
set_option autoImplicit false
namespace Slimcc.FP
open Slimcc.Spec Slimcc.Spec.CTy Slimcc.Spec.FP Slimcc.X86 Slimcc.Ty Slimcc.Gen

theorem fmt_ok (f : FTy) : Fmt.Ok f.fmt := by cases f; exact width32.1; exact width64.1; exact ok80

theorem convert_self {F : Fmt} (hF : Fmt.Ok F) {x : Fl} (h : F.has x) : convert F x = x :=
  converted_unique hF (Props.convertedTo F hF x) (Props.convertedTo_self F x h)

theorem datum_zero (d : Bool) (w : Word) (h : w = 0) : datum d w = datum d 0 := by rw [h]

theorem datum_zx4 (w : Word) : datum false (zx 4 w) = datum false w := by
  unfold datum; simp only [Bool.false_eq_true, if_false, zx_zx]

/-- 1 and -1 as the x87 holds them. -/
theorem eq_of_compare {x y : Fl} (hx : f80.has x) (hy : f80.has y) {v : ℚ} (hv : y.val = some v) (h0 : v ≠ 0) (h : compare x y = some (false, true)) : x = y := by
  cases y with
  | nan => simp [Fl.val] at hv
  | inf _ => simp [Fl.val] at hv
  | fin b k f =>
    cases x with
    | nan => exact absurd h (by simp [compare])
    | inf n => cases n <;> exact absurd h (by simp [compare])
    | fin a m e =>
      have e1 : (Fl.fin a m e).val = some (sgn a * m * 2 ^ e) := val_fin a m e
      rw [compare_val e1 hv] at h
      have hvw : sgn a * m * 2 ^ e = v := by
        have := (Prod.mk.inj (Option.some.inj h)).2
        exact of_decide_eq_true this
      have s1 : Rounded f80 v (.fin a m e) := by rw [← hvw]; exact Props.Rounded.self hx e1
      have s2 : Rounded f80 v (.fin b k f) := Props.Rounded.self hy hv
      exact rounded_unique ok80 h0 s1 s2

section
variable {E : FEnv} {σ : Nat → Val}

theorem x87_place {x : Fl} {n : Nat} {s : FS} (hx : f80.has x) (h : s.st = [x]) : InPlace (.flo .ldouble) (.f x) n s := ⟨[], ⟨hx, h⟩, Nat.zero_le _⟩

theorem one_val : (Fl.fin false (2 ^ 63) (-63)).val = some 1 := by
  rw [val_fin, show (-63 : ℤ) = -((63 : Nat) : ℤ) from rfl, zpow_neg, zpow_natCast]
  norm_num [sgn]
theorem mone_val : (Fl.fin true (2 ^ 63) (-63)).val = some (-1) := by
  rw [val_fin, show (-63 : ℤ) = -((63 : Nat) : ℤ) from rfl, zpow_neg, zpow_natCast]
  norm_num [sgn]
theorem one_has (n : Bool) : f80.has (.fin n (2 ^ 63) (-63)) := by rw [f80_fin]; exact ⟨by decide, by decide, by decide, .inl (by decide)⟩
theorem zero_has (n : Bool) : f80.has (.fin n 0 f80.emin) := by rw [show f80.emin = -16445 from rfl, f80_fin]; exact ⟨by decide, by decide, by decide, .inr rfl⟩

theorem sub16_8 (sp : Word) : sp - 8 - 8 + 8 = sp - 8 := BitVec.sub_add_cancel _ _
theorem sub16_16 (sp : Word) : sp - 8 - 8 + 16 = sp := by bv_omega
theorem sub16 (sp : Word) : sp - 8 - 8 = sp - 24 + BitVec.ofNat 64 8 := by
  show _ = sp - 24 + 8
  bv_omega

theorem loadSse_run (d : Bool) (c : Fl) (n : Nat) (s : FS) (hs : Within E σ n s) :
    Runs E.sym (loadSse d c) none s fun s' => InPlace (.flo (fty d)) (.f (convert (fmtOf d) c)) n s' ∧ Leaves E 0 0 s s' := by
  have hb := datum_bits d (convert_has (fmtOf d) (okOf d) c)
  unfold loadSse
  dsimp only
  by_cases hw : bits d (convert (fmtOf d) c) = 0
  · rw [if_pos hw]
    refine runs_i (by rfl) ?_
    refine runs_nil ⟨(inPlace_fty _ _ _ _).2 ⟨?_, hs.st⟩, ⟨rfl, fun _ => rfl, rfl, fun i hi => if_neg (by omega), fun _ _ _ => rfl⟩⟩
    show datum d (if 0 = 0 then s.xmm 0 ^^^ s.xmm 0 else _) = _
    rw [if_pos rfl, BitVec.xor_self, ← hb, hw]; rfl
  · rw [if_neg hw]
    cases d with
    | true =>
      rw [if_pos rfl]
      refine runs_gp (by rfl) ?_
      refine runs_i (by rfl) ?_
      refine runs_nil ⟨(inPlace_fty _ _ _ _).2 ⟨?_, hs.st⟩, ⟨rfl, fun _ => rfl, rfl, fun i hi => if_neg (by omega), fun _ _ _ => rfl⟩⟩
      show datum true (if 0 = 0 then put 8 (s.g.r .ax) (zx 8 _) else _) = _
      rw [if_pos rfl, put8, zx8]
      exact hb
    | false =>
      rw [if_neg (by decide)]
      refine runs_gp (by rfl) ?_
      refine runs_i (by rfl) ?_
      refine runs_nil ⟨(inPlace_fty _ _ _ _).2 ⟨?_, hs.st⟩, ⟨rfl, fun _ => rfl, rfl, fun i hi => if_neg (by omega), fun _ _ _ => rfl⟩⟩
      show datum false (if 0 = 0 then zx 4 (put 4 (s.g.r .ax) (zx 4 _)) else _) = _
      rw [if_pos rfl, put4, zx_zx, zx_zx, datum_zx4]
      exact hb

theorem fninit_leaves {n : Nat} {s : FS} (hs : Within E σ n s) (st : List Fl) : Leaves E 0 0 s { s with st := st, cw := 0x37f#16 } :=
  ⟨rfl, fun _ => rfl, hs.cw.symm, fun _ _ => rfl, fun _ _ _ => rfl⟩

theorem loadBig_run (c : Fl) (hc : f80.has c) (n : Nat) (s : FS) (hs : Within E σ n s) :
    Runs E.sym [
      .i (.gp (.mov 8 (.imm (BitVec.ofNat 64 (encode80 c).1)) (.reg .ax))), .i (.gp (.mov 2 (.imm (BitVec.ofNat 64 (encode80 c).2)) (.reg .dx))),
      .i .pushdx, .i .push, .i .fninit, .i (.fldt (at_ 0)), .i (.gp (.alu .add 8 (.imm 16) (.reg rsp)))] none s
      fun s' => InPlace (.flo .ldouble) (.f c) n s' ∧ Leaves E 0 0 s s' := by
  generalize hw1 : BitVec.ofNat 64 (encode80 c).1 = w1
  generalize hw2 : BitVec.ofNat 64 (encode80 c).2 = w2
  refine runs_gp (by rfl) ?_
  refine runs_gp (by rfl) ?_
  refine runs_i (by rfl) ?_
  refine runs_i (by rfl) ?_
  refine runs_i (by rfl) ?_
  generalize hv1 : (put 8 (s.g.r .ax) (zx 8 w1)) = v1
  generalize hv2 : (put 2 (s.g.r .dx) (zx 2 w2)) = v2
  have e1 : v1 = w1 := by rw [← hv1, put8, zx8]
  have e2 : zx 2 v2 = zx 2 w2 := by rw [← hv2, MemL.zx_put 2 (by omega), zx_zx]
  obtain ⟨s5, hs5⟩ : ∃ s5 : FS, s5 = { s with
      g := { (((((s.g.setR .ax v1).setR .dx v2).setR rsp (E.sp - 8)).setR rsp (E.sp - 8 - 8)) : St) with
        m := wr (wr s.g.m (E.sp - 8) 8 v2) (E.sp - 8 - 8) 8 v1 }, st := [], cw := 0x37f#16 } := ⟨_, rfl⟩
  have ex : fexec E.sym (.fldt (at_ 0)) s5 = some { s5 with st := c :: s5.st } := by
    refine exec_fldt _ _ _ _ (E.sp - 8 - 8) (E.sp - 8) ?_ (sub16_8 _) (by rw [hs5]; exact Nat.zero_lt_succ _) ?_
    · rw [hs5]; exact off0 _
    · rw [hs5]
      show decode80 (rd (wr (wr s.g.m (E.sp - 8) 8 v2) (E.sp - 8 - 8) 8 v1) (E.sp - 8 - 8) 8).toNat (rd (wr (wr s.g.m (E.sp - 8) 8 v2) (E.sp - 8 - 8) 8 v1) (E.sp - 8) 2).toNat = c
      have dj : Disj (E.sp - 8 - 8) 8 (E.sp - 8) 2 := by
        have := disj_int (E.sp - 8 - 8) 0 8 8 2 (by omega) (by omega) (by omega) (by omega) (by omega)
        rw [off0, show E.sp - 8 - 8 + BitVec.ofInt 64 8 = E.sp - 8 from sub16_8 _] at this
        exact this
      rw [rd_wr_same _ _ _ _ (by omega), zx8, rd_wr_disj _ _ _ _ _ _ (by omega) dj, rd_prefix _ _ 8 2 (by omega) (by omega), rd_wr_same _ _ _ _ (by omega), zx8,
        e1, e2, ← hw1, ← hw2]
      exact decode_words hc
  have hcur : ({ s with
      g := { (((((s.g.setR .ax v1).setR .dx v2).setR rsp (s.g.r rsp - 8)).setR rsp (s.g.r rsp - 8 - 8)) : St) with
        m := wr (wr s.g.m (s.g.r rsp - 8) 8 v2) (s.g.r rsp - 8 - 8) 8 v1 }, st := [], cw := 0x37f#16 } : FS) = s5 := by rw [hs5, hs.sp]
  refine runs_i (s1 := { s5 with st := c :: s5.st }) (by rw [← ex, ← hcur, ← hv1, ← hv2]; rfl) ?_
  refine runs_gp (by rfl) ?_
  refine runs_nil ⟨x87_place hc ?_, ?_⟩
  · show c :: s5.st = [c]; rw [hs5]
  · rw [hs5]
    refine ⟨rfl, fun i => ?_, hs.cw.symm, fun _ _ => rfl, fun a ha _ => ?_⟩
    · by_cases hi : i = 6
      · subst hi
        show put 8 (E.sp - 8 - 8) (zx 8 (E.sp - 8 - 8) + zx 8 16) = s.g.r rsp
        rw [put8, zx8, zx8, sub16_16, hs.sp]
      · have : (Reg.tmp i = rsp) = False := by simp [rsp, hi]
        simp [St.setR, St.noFlags, this]
    · show wr (wr s.g.m (E.sp - 8) 8 v2) (E.sp - 8 - 8) 8 v1 a = _
      rw [wr_other _ _ _ _ _ (by rw [sub16]; exact below E.sp a 8 8 (by omega) ha), wr_other _ _ _ _ _ (below8 _ _ ha)]

/-- codegen.c:920-956. -/
theorem loadFval_run (f : FTy) (c : Fl) (hc : f80.has c) (n : Nat) (s : FS) (hs : Within E σ n s) :
    Runs E.sym (loadFval f c) none s fun s' => InPlace (.flo f) (.f (convert f.fmt c)) n s' ∧ Leaves E 0 0 s s' := by
  cases f with
  | float => exact loadSse_run false c n s hs
  | double => exact loadSse_run true c n s hs
  | ldouble =>
    rw [show FTy.ldouble.fmt = f80 from rfl, convert_self ok80 hc]
    obtain ⟨_, _, hde⟩ := decode_encode80 hc
    unfold loadFval
    dsimp only
    by_cases h1 : encode80 c = (0, 0)
    · rw [if_pos h1]
      rw [h1] at hde
      have e : c = .fin false 0 f80.emin := by rw [← hde]; rfl
      subst e
      refine runs_i (by rfl) ?_
      refine runs_i (push_some _ _ (by simp)) (runs_nil ⟨x87_place (zero_has _) rfl, fninit_leaves hs _⟩)
    rw [if_neg h1]
    by_cases h2 : encode80 c = (0, 2 ^ 15)
    · rw [if_pos h2]
      rw [h2] at hde
      have e : c = .fin true 0 f80.emin := by rw [← hde]; decide
      subst e
      refine runs_i (by rfl) ?_
      refine runs_i (push_some _ _ (by simp)) ?_
      refine runs_i (by rfl) ?_
      refine runs_nil ⟨x87_place (zero_has _) rfl, fninit_leaves hs _⟩
    rw [if_neg h2]
    by_cases h3 : compare c (.fin false (2 ^ 63) (-63)) = some (false, true)
    · rw [if_pos h3]
      have e := eq_of_compare hc (one_has _) one_val (by norm_num) h3
      subst e
      refine runs_i (by rfl) ?_
      refine runs_i (push_some _ _ (by simp)) (runs_nil ⟨x87_place (one_has _) rfl, fninit_leaves hs _⟩)
    rw [if_neg h3]
    by_cases h4 : compare c (.fin true (2 ^ 63) (-63)) = some (false, true)
    · rw [if_pos h4]
      have e := eq_of_compare hc (one_has _) mone_val (by norm_num) h4
      subst e
      refine runs_i (by rfl) ?_
      refine runs_i (push_some _ _ (by simp)) ?_
      refine runs_i (by rfl) ?_
      refine runs_nil ⟨x87_place (one_has _) rfl, fninit_leaves hs _⟩
    rw [if_neg h4]
    exact loadBig_run c hc n s hs

/-! Negation. -/

theorem decode_flip (F : Fmt) (w : Nat) (hp : F.p - 1 ≤ w - 1) (b : Nat) : decode F w (b ^^^ 2 ^ (w - 1)) = opposite (decode F w b) := by
  have h1 : (b ^^^ 2 ^ (w - 1)) % 2 ^ (w - 1) = b % 2 ^ (w - 1) := by
    rw [Nat.xor_mod_two_pow, Nat.mod_self, Nat.xor_zero]
  have h2 : (b ^^^ 2 ^ (w - 1)) % 2 ^ (F.p - 1) = b % 2 ^ (F.p - 1) := by
    rw [Nat.xor_mod_two_pow, Nat.mod_eq_zero_of_dvd (Nat.pow_dvd_pow 2 hp), Nat.xor_zero]
  have h3 : decide ((b ^^^ 2 ^ (w - 1)) / 2 ^ (w - 1) % 2 = 1) = !decide (b / 2 ^ (w - 1) % 2 = 1) := by
    rw [Nat.xor_div_two_pow, Nat.div_self (by positivity)]
    have := Nat.xor_mod_two_pow (a := b / 2 ^ (w - 1)) (b := 1) (n := 1)
    rw [pow_one] at this
    rw [this]
    rcases Nat.mod_two_eq_zero_or_one (b / 2 ^ (w - 1)) with h | h <;> rw [h] <;> rfl
  unfold decode
  dsimp only
  rw [h1, h2, h3]
  by_cases c1 : b % 2 ^ (w - 1) / 2 ^ (F.p - 1) = 0
  · rw [if_pos c1, if_pos c1]; rfl
  rw [if_neg c1, if_neg c1]
  by_cases c2 : ((b % 2 ^ (w - 1) / 2 ^ (F.p - 1) : ℕ) : ℤ) = F.emax - F.emin + 2
  · rw [if_pos c2, if_pos c2]
    by_cases c3 : b % 2 ^ (F.p - 1) = 0
    · rw [if_pos c3, if_pos c3]; rfl
    · rw [if_neg c3, if_neg c3]; rfl
  · rw [if_neg c2, if_neg c2]; rfl

theorem flip32 (w : Word) : datum false (w ^^^ 0x80000000#64) = opposite (datum false w) := by
  have h := decode_flip f32 32 (by decide) (w.toNat % 2 ^ 32)
  have e : (w ^^^ 0x80000000#64).toNat % 2 ^ 32 = w.toNat % 2 ^ 32 ^^^ 2 ^ (32 - 1) := by
    rw [BitVec.toNat_xor, Nat.xor_mod_two_pow]
    rfl
  rw [datum_f32, datum_f32, e, h]

theorem flip64 (w : Word) : datum true (w ^^^ 0x8000000000000000#64) = opposite (datum true w) := by
  have h := decode_flip f64 64 (by decide) w.toNat
  have e : (w ^^^ 0x8000000000000000#64).toNat = w.toNat ^^^ 2 ^ (64 - 1) := by
    rw [BitVec.toNat_xor]
    rfl
  rw [datum_f64, datum_f64, e, h]

theorem negate_run (f : FTy) (x : Fl) (n : Nat) (s : FS) (hx : InPlace (.flo f) (.f x) n s) :
    Runs E.sym (negate f) none s fun s' => InPlace (.flo f) (.f (opposite x)) n s' ∧ Leaves E 0 0 s s' := by
  cases f with
  | float =>
    obtain ⟨h1, h2⟩ := (inPlace_fty false x n s).1 hx
    refine runs_gp (by rfl) ?_
    refine runs_i (by rfl) ?_
    refine runs_i (by rfl) ?_
    refine runs_nil ⟨(inPlace_fty false _ _ _).2 ⟨?_, h2⟩, ⟨rfl, fun _ => rfl, rfl, fun i hi => ?_, fun _ _ _ => rfl⟩⟩
    · rw [← h1, ← flip32]; rfl
    · show (if i = 0 then _ else if i = 1 then _ else _) = _
      rw [if_neg (by omega), if_neg (by omega)]
  | double =>
    obtain ⟨h1, h2⟩ := (inPlace_fty true x n s).1 hx
    refine runs_gp (by rfl) ?_
    refine runs_i (by rfl) ?_
    refine runs_i (by rfl) ?_
    refine runs_nil ⟨(inPlace_fty true _ _ _).2 ⟨?_, h2⟩, ⟨rfl, fun _ => rfl, rfl, fun i hi => ?_, fun _ _ _ => rfl⟩⟩
    · rw [← h1, ← flip64]; rfl
    · show (if i = 0 then _ else if i = 1 then _ else _) = _
      rw [if_neg (by omega), if_neg (by omega)]
  | ldouble =>
    obtain ⟨st, ⟨h1, h2⟩, h3⟩ := hx
    have ex : fexec E.sym .fchs s = some { s with st := neg x :: st } := by unfold fexec; rw [h2]
    refine runs_i ex (runs_nil ⟨⟨st, ⟨?_, ?_⟩, h3⟩, ⟨rfl, fun _ => rfl, rfl, fun i hi => rfl, fun _ _ _ => rfl⟩⟩)
    · cases x <;> exact h1
    · cases x <;> rfl

/-! Operators. -/

theorem sum_comm {F : Fmt} {x y r : Fl} (h : Sum F y x r) : Sum F x y r := by
  cases x with
  | nan => cases y <;> exact h
  | inf a =>
    cases y with
    | nan => exact h
    | inf b => change r = if b = a then Fl.inf b else .nan at h; show r = if a = b then Fl.inf a else .nan
               rw [h]; cases a <;> cases b <;> rfl
    | fin b k f => exact h
  | fin a m e =>
    cases y with
    | nan => exact h
    | inf b => exact h
    | fin b k f =>
      obtain ⟨v, w, h1, h2, h3, h4⟩ := h
      exact ⟨w, v, h2, h1, by rw [add_comm]; exact h3, by rw [add_comm, Bool.and_comm]; exact h4⟩

theorem product_comm {F : Fmt} {x y r : Fl} (h : Product F y x r) : Product F x y r := by
  cases x with
  | nan => cases y <;> exact h
  | inf a =>
    cases y with
    | nan => exact h
    | inf b => change r = Fl.inf (b ^^ a) at h; show r = Fl.inf (a ^^ b); rw [h, Bool.xor_comm]
    | fin b k f => change r = if k = 0 then Fl.nan else .inf (b ^^ a) at h; show r = if k = 0 then Fl.nan else .inf (a ^^ b); rw [h, Bool.xor_comm]
  | fin a m e =>
    cases y with
    | nan => exact h
    | inf b => change r = if m = 0 then Fl.nan else .inf (b ^^ a) at h; show r = if m = 0 then Fl.nan else .inf (a ^^ b); rw [h, Bool.xor_comm]
    | fin b k f =>
      obtain ⟨v, w, h1, h2, h3, h4⟩ := h
      exact ⟨w, v, h2, h1, by rw [mul_comm]; exact h3, by rw [mul_comm, Bool.xor_comm]; exact h4⟩

theorem result_unique {f : FTy} {op : FBin} {x y r r' : Fl} (h : op.Result f.fmt x y r) (h' : op.Result f.fmt x y r') : r = r' := by
  cases op with
  | add => exact sum_unique (fmt_ok f) h h'
  | sub => exact sum_unique (fmt_ok f) h h'
  | mul => exact product_unique (fmt_ok f) h h'
  | div => exact quotient_unique (fmt_ok f) h h'

theorem mul_has (F : Fmt) (hF : Fmt.Ok F) (x y : Fl) : F.has (mul F x y) := by
  cases x with
  | nan => trivial
  | inf a => cases y with
    | nan => trivial
    | inf b => trivial
    | fin b k f => show F.has (if k = 0 then .nan else _); split <;> trivial
  | fin a m e => cases y with
    | nan => trivial
    | inf b => show F.has (if m = 0 then .nan else _); split <;> trivial
    | fin b k f => exact round_has F hF _ _ _

theorem rounded_has {F : Fmt} {v : ℚ} {r : Fl} (h : Rounded F v r) : F.has r := by
  cases h with
  | over _ _ e => rw [e]; trivial
  | near _ _ _ _ _ h => exact h

theorem emin_has (F : Fmt) (hF : Fmt.Ok F) (n : Bool) : F.has (.fin n 0 F.emin) := by
  have := round_has F hF n 0 0
  rwa [round_zero] at this

theorem div_has (F : Fmt) (hF : Fmt.Ok F) (x y : Fl) : F.has (div F x y) := by
  have h := div_quotient F hF x y
  cases x with
  | nan => rw [show div F .nan y = .nan from h]; trivial
  | inf a => cases y with
    | nan => rw [show div F _ _ = .nan from h]; trivial
    | inf b => rw [show div F _ _ = .nan from h]; trivial
    | fin b k f => rw [show div F _ _ = .inf (a ^^ b) from h]; trivial
  | fin a m e => cases y with
    | nan => rw [show div F _ _ = .nan from h]; trivial
    | inf b => rw [show div F _ _ = .fin (a ^^ b) 0 F.emin from h]; exact emin_has F hF _
    | fin b k f =>
      unfold Spec.FP.Quotient at h
      dsimp only at h
      by_cases hk : k = 0
      · rw [if_pos hk] at h; rw [h]; split <;> trivial
      · rw [if_neg hk] at h
        obtain ⟨_, _, _, _, h3, _⟩ := h
        exact rounded_has h3

theorem sub_has (F : Fmt) (hF : Fmt.Ok F) (x y : Fl) : F.has (sub F x y) := add_has F hF x (neg y)

theorem arith_run (f : FTy) (op : FBin) (x y r : Fl) (hr : op.Result f.fmt x y r) (n q : Nat) (s : FS) (hs : Within E σ (n + 2) s) (h : Both f x y q n s) :
    Runs E.sym (arith f op q) none s fun s' => InPlace (.flo f) (.f r) n s' ∧ Leaves E 0 (q - 1) s s' := by
  have sse : ∀ d : Bool, f = fty d → Runs E.sym (arith f op q) none s fun s' => InPlace (.flo f) (.f r) n s' ∧ Leaves E 0 (q - 1) s s' := by
    rintro d rfl
    rw [both_fty] at h
    obtain ⟨hq, hx, hy, hst⟩ := h
    have l0 : ∀ v, Leaves E 0 (q - 1) s (s.setF d 0 v) := fun v => ⟨rfl, fun _ => rfl, rfl, fun i hi => if_neg (by omega), fun _ _ _ => rfl⟩
    have l1 : ∀ v w, Leaves E 0 (q - 1) s ((s.setF d q v).setX 0 w) := fun v w => by
      refine ⟨rfl, fun _ => rfl, rfl, fun i hi => ?_, fun _ _ _ => rfl⟩
      show (if i = 0 then _ else if i = q then _ else _) = _
      rw [if_neg (by omega), if_neg (by omega)]
    have ew : fmtOf d = (fty d).fmt := (fmt_fty d).symm
    cases op with
    | add =>
      have : arith (fty d) .add q = [.i (.adds d q 0)] := by cases d <;> rfl
      rw [this]
      refine runs_i (by rfl) ?_
      refine runs_nil ⟨(inPlace_fty _ _ _ _).2 ⟨?_, hst⟩, l0 _⟩
      rw [datum_set _ _ _ (add_has _ (okOf d) _ _), hx, hy]
      have := sum_comm (add_sum (fmtOf d) (okOf d) y x)
      exact (sum_unique (okOf d) (by rw [ew]; exact hr) this).symm
    | mul =>
      have : arith (fty d) .mul q = [.i (.muls d q 0)] := by cases d <;> rfl
      rw [this]
      refine runs_i (by rfl) ?_
      refine runs_nil ⟨(inPlace_fty _ _ _ _).2 ⟨?_, hst⟩, l0 _⟩
      rw [datum_set _ _ _ (mul_has _ (okOf d) _ _), hx, hy]
      have := product_comm (mul_product (fmtOf d) (okOf d) y x)
      exact (product_unique (okOf d) (by rw [ew]; exact hr) this).symm
    | sub =>
      have : arith (fty d) .sub q = [.i (.subs d 0 q), .i (.movaps q 0)] := by cases d <;> rfl
      rw [this]
      refine runs_i (by rfl) ?_
      refine runs_i (by rfl) ?_
      refine runs_nil ⟨(inPlace_fty _ _ _ _).2 ⟨?_, hst⟩, l1 _ _⟩
      show datum d (if 0 = 0 then _ else _) = _
      rw [if_pos rfl, datum_set _ _ _ (sub_has _ (okOf d) _ _), hx, hy]
      exact (sum_unique (okOf d) (by rw [ew]; exact hr) (sub_sum (fmtOf d) (okOf d) x y)).symm
    | div =>
      have : arith (fty d) .div q = [.i (.divs d 0 q), .i (.movaps q 0)] := by cases d <;> rfl
      rw [this]
      refine runs_i (by rfl) ?_
      refine runs_i (by rfl) ?_
      refine runs_nil ⟨(inPlace_fty _ _ _ _).2 ⟨?_, hst⟩, l1 _ _⟩
      show datum d (if 0 = 0 then _ else _) = _
      rw [if_pos rfl, datum_set _ _ _ (div_has _ (okOf d) _ _), hx, hy]
      exact (quotient_unique (okOf d) (by rw [ew]; exact hr) (div_quotient (fmtOf d) (okOf d) x y)).symm
  cases f with
  | float => exact sse false rfl
  | double => exact sse true rfl
  | ldouble =>
    obtain ⟨hx, hy, st, hst, hn⟩ := h
    have hcw := within_plain hs
    have fin : ∀ (i : FIns) (v : Fl), f80.has v → op.Result f80 x y v → fexec E.sym i s = some { s with st := v :: st } →
        Runs E.sym [.i i] none s fun s' => InPlace (.flo .ldouble) (.f r) n s' ∧ Leaves E 0 (q - 1) s s' := by
      intro i v hv hres hex
      have e : r = v := result_unique (f := .ldouble) hr hres
      subst e
      exact runs_i hex (runs_nil ⟨⟨st, ⟨hv, rfl⟩, hn⟩, ⟨rfl, fun _ => rfl, rfl, fun i hi => rfl, fun _ _ _ => rfl⟩⟩)
    cases op with
    | add => exact fin _ _ (add_has _ ok80 _ _) (add_sum f80 ok80 x y) (by simp only [fexec, hst, if_pos hcw])
    | sub => exact fin _ _ (sub_has _ ok80 _ _) (sub_sum f80 ok80 x y) (by simp only [fexec, hst, if_pos hcw])
    | mul => exact fin _ _ (mul_has _ ok80 _ _) (mul_product f80 ok80 x y) (by simp only [fexec, hst, if_pos hcw])
    | div => exact fin _ _ (div_has _ ok80 _ _) (div_quotient f80 ok80 x y) (by simp only [fexec, hst, if_pos hcw])

end
end Slimcc.FP
