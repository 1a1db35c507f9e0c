import Verif.Lemmas.FpCast4
/-!
C62: conversions between integer and floating types, and between floating types, at run time.
-/
set_option autoImplicit false
namespace Slimcc.Props
open Slimcc.FP Slimcc.Spec Slimcc.Spec.CTy Slimcc.Spec.FP Slimcc.X86 Slimcc.Ty Slimcc.Gen

theorem low_inReg {T : CTy} (h8 : T.bytes ≠ 8) (hb : T ≠ .bool) (z : ℤ) (x : Word) : InReg T z x ↔ Low 4 z x := by
  constructor
  · intro hx
    have := hx.1
    cases T <;> first | exact this | exact absurd rfl h8
  · intro hx
    refine ⟨?_, fun e => absurd e hb⟩
    cases T <;> first | exact hx | exact absurd rfl h8

theorem full_inReg {T : CTy} (h : T.bytes = 8) (z : ℤ) (x : Word) : InReg T z x ↔ x = BitVec.ofInt 64 z := by
  have hb : T ≠ .bool := by rintro rfl; exact absurd h (by decide)
  constructor
  · intro hx
    have := hx.1
    cases T <;> first | exact (show Low 8 z x from this).eq8 | exact absurd h (by decide)
  · rintro rfl
    refine ⟨?_, fun _ => rfl⟩
    cases T <;> first | exact Low.of_eq 8 z (by omega) | exact absurd h (by decide)

theorem ofInt_zero (F : FTy) : ofInt F.fmt 0 = .fin false 0 F.fmt.emin := by cases F <;> rfl

/-- A value of any integer type, converted to a floating type, becomes the nearest number of that type (0 becomes the positive
zero), in the place where values of the type are kept. -/
theorem C62_to_float (sym : Nat → Word) (T : CTy) (F : FTy) (z : ℤ) (s : FS) (hz : InRange T z) (hr : InReg T z (s.g.r .ax)) (hcw : plainCW s.cw)
    (hst : s.st.length < 8) :
    ∃ s' r, frun sym (toFloat (typeId (ity T)) F) none s = some s' ∧ InFp F r s.st s' ∧ Rounded F.fmt z r ∧ (z = 0 → r = .fin false 0 F.fmt.emin) ∧
      Undisturbed s s' := by
  have conv : ∀ (d : Bool) (l : List FLine), (Runs sym l none s fun s' => datum d (s'.xmm 0) = ofInt (fmtOf d) z ∧ s'.st = s.st ∧ Undisturbed s s') →
      ∃ s' r, frun sym l none s = some s' ∧ InFp (fty d) r s.st s' ∧ Rounded (fty d).fmt z r ∧ (z = 0 → r = .fin false 0 (fty d).fmt.emin) ∧ Undisturbed s s' := by
    rintro d l ⟨s', h1, h2, h3, h4⟩
    refine ⟨s', ofInt (fmtOf d) z, h1, (inFp_iff _ _ _ _).2 ⟨h2, h3⟩, ?_, ?_, h4⟩
    · rw [fmt_fty]; exact ofInt_rounded _ (okOf d) z
    · rintro rfl; rw [← ofInt_zero, fmt_fty]
  have conv80 : ∀ (l : List FLine), (Runs sym l none s fun s' => s'.st = ofInt f80 z :: s.st ∧ Undisturbed s s') →
      ∃ s' r, frun sym l none s = some s' ∧ InFp .ldouble r s.st s' ∧ Rounded FTy.ldouble.fmt z r ∧ (z = 0 → r = .fin false 0 FTy.ldouble.fmt.emin) ∧ Undisturbed s s' := by
    rintro l ⟨s', h1, h2, h4⟩
    refine ⟨s', ofInt f80 z, h1, ⟨ofInt_has _ ok80 _, h2⟩, ofInt_rounded _ ok80 z, ?_, h4⟩
    rintro rfl; exact ofInt_zero .ldouble
  have i32 : T.bytes ≠ 8 → T ≠ .bool → -2 ^ 31 ≤ z → z < 2 ^ 31 → ∃ s' r, frun sym (toFloat .i32 F) none s = some s' ∧ InFp F r s.st s' ∧
      Rounded F.fmt z r ∧ (z = 0 → r = .fin false 0 F.fmt.emin) ∧ Undisturbed s s' := by
    intro h1 h2 h3 h4
    have hl := (low_inReg h1 h2 z _).1 hr
    cases F with
    | float => exact conv false _ (run_i32f false z s h3 h4 hl)
    | double => exact conv true _ (run_i32f true z s h3 h4 hl)
    | ldouble => exact conv80 _ (run_i32f80 z s hst h3 h4 hl)
  have i64 : T.bytes = 8 → -2 ^ 63 ≤ z → z < 2 ^ 63 → ∃ s' r, frun sym (toFloat .i64 F) none s = some s' ∧ InFp F r s.st s' ∧
      Rounded F.fmt z r ∧ (z = 0 → r = .fin false 0 F.fmt.emin) ∧ Undisturbed s s' := by
    intro h1 h3 h4
    have hl := (full_inReg h1 z _).1 hr
    cases F with
    | float => exact conv false _ (run_i64f false z s h3 h4 hl)
    | double => exact conv true _ (run_i64f true z s h3 h4 hl)
    | ldouble => exact conv80 _ (run_i64f80 z s hst h3 h4 hl)
  have u64 : s.g.r .ax = BitVec.ofInt 64 z → 0 ≤ z → z < 2 ^ 64 → ∃ s' r, frun sym (toFloat .u64 F) none s = some s' ∧ InFp F r s.st s' ∧
      Rounded F.fmt z r ∧ (z = 0 → r = .fin false 0 F.fmt.emin) ∧ Undisturbed s s' := by
    intro hl h3 h4
    have hn : ((s.g.r .ax).toNat : ℤ) = z := by rw [hl, Slimcc.FP.toNat_ofInt64 z h3 h4]; omega
    cases F with
    | float => exact conv false _ (by have := run_u64f (sym := sym) false s; rwa [hn] at this)
    | double => exact conv true _ (by have := run_u64f (sym := sym) true s; rwa [hn] at this)
    | ldouble =>
      obtain ⟨s', h1, ⟨r, ha, hb, hc, hd⟩, he⟩ := run_u64f80 (sym := sym) s hst hcw
      refine ⟨s', r, h1, ⟨ha, hd⟩, ?_, fun h0 => ?_, he⟩
      · have : ((s.g.r .ax).toNat : ℚ) = z := by rw [← hn]; simp
        rwa [this] at hb
      · rw [hc (by rw [hl, h0]; rfl)]; exact ofInt_zero .ldouble
  cases T with
  | bool => rw [range_bool] at hz; exact u64 (hr.2 rfl) (by omega) (by omega)
  | char => rw [range_char] at hz; exact i32 (by decide) (by decide) (by omega) (by omega)
  | schar => rw [range_schar] at hz; exact i32 (by decide) (by decide) (by omega) (by omega)
  | uchar => rw [range_uchar] at hz; exact i32 (by decide) (by decide) (by omega) (by omega)
  | short => rw [range_short] at hz; exact i32 (by decide) (by decide) (by omega) (by omega)
  | ushort => rw [range_ushort] at hz; exact i32 (by decide) (by decide) (by omega) (by omega)
  | int => rw [range_int] at hz; exact i32 (by decide) (by decide) (by omega) (by omega)
  | uint =>
    rw [range_uint] at hz
    have hl := (low_inReg (by decide) (by decide) z _).1 hr
    cases F with
    | float => exact conv false _ (run_u32f false z s (by omega) (by omega) hl)
    | double => exact conv true _ (run_u32f true z s (by omega) (by omega) hl)
    | ldouble => exact conv80 _ (run_u32f80 z s hst (by omega) (by omega) hl)
  | long => rw [range_long] at hz; exact i64 (by decide) (by omega) (by omega)
  | llong => rw [range_llong] at hz; exact i64 (by decide) (by omega) (by omega)
  | ulong => rw [range_ulong] at hz; exact u64 ((full_inReg (by decide) z _).1 hr) (by omega) (by omega)
  | ullong => rw [range_ullong] at hz; exact u64 ((full_inReg (by decide) z _).1 hr) (by omega) (by omega)

/-- 6.3.1.4: the conversion to an integer type other than `bool` is defined if the integral part is a value of the type. -/
def IntPart (T : CTy) (v : ℚ) : Prop := T ≠ .bool ∧ InRange T (truncated v)

/-- The conversions from long double to short, unsigned short and unsigned int are right for part of the values only;
see `C62_ldouble_short`, `C62_ldouble_ushort`, `C62_ldouble_uint`. -/
def Sound (F : FTy) (T : CTy) (z : ℤ) : Prop :=
  F = .ldouble → (T = .short → 0 ≤ z ∧ z < 256) ∧ (T = .ushort → z < 2 ^ 15) ∧ (T = .uint → z < 2 ^ 31)

/-- A number of a floating type, converted to an integer type that has its integral part, becomes that integer. -/
theorem C62_from_float (sym : Nat → Word) (F : FTy) (T : CTy) (x : Fl) (v : ℚ) (st : List Fl) (s : FS) (hx : InFp F x st s) (hv : x.val = some v)
    (hT : IntPart T v) (hS : Sound F T (truncated v)) (hcw : plainCW s.cw) (hst : st.length ≤ 5) :
    ∃ s', frun sym (fromFloat F (typeId (ity T))) none s = some s' ∧ InReg T (truncated v) (s'.g.r .ax) ∧ s'.st = st ∧ Undisturbed s s' := by
  obtain ⟨hb, hr⟩ := hT
  have low : ∀ (l : List FLine), T.bytes ≠ 8 → (Runs sym l none s fun s' => Low 4 (truncated v) (s'.g.r .ax) ∧ s'.st = st ∧ Undisturbed s s') →
      ∃ s', frun sym l none s = some s' ∧ InReg T (truncated v) (s'.g.r .ax) ∧ s'.st = st ∧ Undisturbed s s' := by
    rintro l h8 ⟨s', h1, h2, h3⟩
    exact ⟨s', h1, (low_inReg h8 hb _ _).2 h2, h3⟩
  have full : ∀ (l : List FLine), T.bytes = 8 → (Runs sym l none s fun s' => s'.g.r .ax = BitVec.ofInt 64 (truncated v) ∧ s'.st = st ∧ Undisturbed s s') →
      ∃ s', frun sym l none s = some s' ∧ InReg T (truncated v) (s'.g.r .ax) ∧ s'.st = st ∧ Undisturbed s s' := by
    rintro l h8 ⟨s', h1, h2, h3⟩
    exact ⟨s', h1, (full_inReg h8 _ _).2 h2, h3⟩
  have sse : ∀ d : Bool, F = fty d → ∃ s', frun sym (fromFloat F (typeId (ity T))) none s = some s' ∧ InReg T (truncated v) (s'.g.r .ax) ∧ s'.st = st ∧ Undisturbed s s' := by
    rintro d rfl
    rw [inFp_iff] at hx
    obtain ⟨hx1, rfl⟩ := hx
    rw [← hx1] at hv
    have ht := roundInt_trunc hv
    cases T with
    | bool => exact absurd rfl hb
    | char => have h := hr; rw [range_char] at h; exact low _ (by decide) (by cases d <;> exact run_cvtt_ext _ .char _ s ht (by decide) hr (by omega) (by omega) (by decide))
    | schar => have h := hr; rw [range_schar] at h; exact low _ (by decide) (by cases d <;> exact run_cvtt_ext _ .schar _ s ht (by decide) hr (by omega) (by omega) (by decide))
    | uchar => have h := hr; rw [range_uchar] at h; exact low _ (by decide) (by cases d <;> exact run_cvtt_ext _ .uchar _ s ht (by decide) hr (by omega) (by omega) (by decide))
    | short => have h := hr; rw [range_short] at h; exact low _ (by decide) (by cases d <;> exact run_cvtt_ext _ .short _ s ht (by decide) hr (by omega) (by omega) (by decide))
    | ushort => have h := hr; rw [range_ushort] at h; exact low _ (by decide) (by cases d <;> exact run_cvtt_ext _ .ushort _ s ht (by decide) hr (by omega) (by omega) (by decide))
    | int => have h := hr; rw [range_int] at h; exact low _ (by decide) (by cases d <;> exact run_cvtt4 _ _ s ht (by omega) (by omega))
    | uint =>
      have h := hr; rw [range_uint] at h
      refine low _ (by decide) ?_
      obtain ⟨s', h1, h2, h3⟩ := run_cvtt8 (sym := sym) d _ s ht (by omega) (by omega)
      refine ⟨s', by rw [← h1]; cases d <;> rfl, by rw [h2]; exact Low.of_eq 4 _ (by omega), h3⟩
    | long => have h := hr; rw [range_long] at h; exact full _ (by decide) (by cases d <;> exact run_cvtt8 _ _ s ht (by omega) (by omega))
    | llong => have h := hr; rw [range_llong] at h; exact full _ (by decide) (by cases d <;> exact run_cvtt8 _ _ s ht (by omega) (by omega))
    | ulong => have h := hr; rw [range_ulong] at h; exact full _ (by decide) (by cases d <;> exact run_fu64 _ v s hv (by omega) (by omega))
    | ullong => have h := hr; rw [range_ullong] at h; exact full _ (by decide) (by cases d <;> exact run_fu64 _ v s hv (by omega) (by omega))
  cases F with
  | float => exact sse false rfl
  | double => exact sse true rfl
  | ldouble =>
    obtain ⟨hx1, hx2⟩ := hx
    have ht := roundInt_trunc hv
    obtain ⟨s1, s2, s3⟩ := hS rfl
    cases T with
    | bool => exact absurd rfl hb
    | char => have h := hr; rw [range_char] at h; exact low _ (by decide) (run_f80ext .char _ 2 (by decide) (by decide) (by decide) hr x st s hx2 ht (by norm_num; omega) (by norm_num; omega))
    | schar => have h := hr; rw [range_schar] at h; exact low _ (by decide) (run_f80ext .schar _ 2 (by decide) (by decide) (by decide) hr x st s hx2 ht (by norm_num; omega) (by norm_num; omega))
    | uchar => have h := hr; rw [range_uchar] at h; exact low _ (by decide) (run_f80ext .uchar _ 2 (by decide) (by decide) (by decide) hr x st s hx2 ht (by norm_num; omega) (by norm_num; omega))
    | short =>
      have h := s1 rfl
      exact low _ (by decide) (run_f80ext .uchar _ 2 (by decide) (by decide) (by decide) ((range_uchar _).2 (by omega)) x st s hx2 ht (by norm_num; omega) (by norm_num; omega))
    | ushort =>
      have h := s2 rfl
      have h' := hr; rw [range_ushort] at h'
      exact low _ (by decide) (run_f80ext .short _ 4 (by decide) (by decide) (by decide) ((range_short _).2 (by omega)) x st s hx2 ht (by norm_num; omega) (by norm_num; omega))
    | int => have h := hr; rw [range_int] at h; exact low _ (by decide) (run_f80i32 x _ st s hx2 (by rw [ht, intBits_in 4 _ (by norm_num; omega) (by norm_num; omega)]))
    | uint => have h := hr; rw [range_uint] at h; have h' := s3 rfl; exact low _ (by decide) (run_f80i32 x _ st s hx2 (by rw [ht, intBits_in 4 _ (by norm_num; omega) (by norm_num; omega)]))
    | long => have h := hr; rw [range_long] at h; exact full _ (by decide) (run_f80i64 x _ st s hx2 ht (by omega) (by omega))
    | llong => have h := hr; rw [range_llong] at h; exact full _ (by decide) (run_f80i64 x _ st s hx2 ht (by omega) (by omega))
    | ulong => have h := hr; rw [range_ulong] at h; exact full _ (by decide) (run_f80u64 x v st s hx2 hx1 hv (by omega) (by omega) hst hcw)
    | ullong => have h := hr; rw [range_ullong] at h; exact full _ (by decide) (run_f80u64 x v st s hx2 hx1 hv (by omega) (by omega) hst hcw)

/-! The three conversions from long double that are wrong. -/

/-- To short: the integral part modulo 256, so every value outside 0..255 is wrong. -/
theorem C62_ldouble_short (sym : Nat → Word) (x : Fl) (v : ℚ) (st : List Fl) (s : FS) (hx : InFp .ldouble x st s) (hv : x.val = some v)
    (hT : InRange .short (truncated v)) :
    ∃ s', frun sym (fromFloat .ldouble (typeId (ity .short))) none s = some s' ∧ InReg .short (truncated v % 256) (s'.g.r .ax) := by
  rw [range_short] at hT
  have ht := roundInt_trunc hv
  obtain ⟨s', h1, h2, _⟩ := run_f80int (sym := sym) 2 (by omega) (.movx false 1 4 (.mem (at_ 0)) .ax) x st s hx.2 (Low 4 (truncated v % 256)) fun g hg => by
    refine ⟨_, rfl, ?_⟩
    show Low 4 _ (put 4 _ (rd g.m (g.r rsp + BitVec.ofInt 64 0) 1))
    rw [off0, put4, rd_prefix _ _ 2 1 (by omega) (by omega), hg, ht, intBits_in 2 _ (by norm_num; omega) (by norm_num; omega)]
    have hl : Low 1 (truncated v) (zx 2 (BitVec.ofInt 64 (truncated v))) := ((Low.of_eq 2 _ (by omega)).zx).mono (by omega) (by omega)
    have hl' : Low 1 (truncated v % 256) (zx 2 (BitVec.ofInt 64 (truncated v))) := hl.congr (by norm_num; omega)
    have := ext_low (ity .uchar) (truncated v % 256) _ (by decide) ((range_uchar _).2 (by omega)) hl'
    rw [show zx 1 (zx 2 (BitVec.ofInt 64 (truncated v))) = BitVec.ofInt 64 (truncated v % 256) from this]
    exact (Low.of_eq 4 _ (by omega)).zx
  exact ⟨s', h1, (low_inReg (by decide) (by decide) _ _).2 h2⟩

/-- To unsigned short: from 2 ^ 15 on the register has the value less 2 ^ 16. -/
theorem C62_ldouble_ushort (sym : Nat → Word) (x : Fl) (v : ℚ) (st : List Fl) (s : FS) (hx : InFp .ldouble x st s) (hv : x.val = some v)
    (hT : InRange .ushort (truncated v)) (hb : 2 ^ 15 ≤ truncated v) :
    ∃ s', frun sym (fromFloat .ldouble (typeId (ity .ushort))) none s = some s' ∧ InReg .ushort (truncated v - 2 ^ 16) (s'.g.r .ax) := by
  rw [range_ushort] at hT
  have ht := roundInt_trunc hv
  obtain ⟨s', h1, h2, _⟩ := run_f80int (sym := sym) 4 (by omega) (.movx true 2 4 (.mem (at_ 0)) .ax) x st s hx.2 (Low 4 (truncated v - 2 ^ 16)) fun g hg => by
    refine ⟨_, rfl, ?_⟩
    show Low 4 _ (put 4 _ (sx 2 (rd g.m (g.r rsp + BitVec.ofInt 64 0) 2)))
    rw [off0, put4, rd_prefix _ _ 4 2 (by omega) (by omega), hg, ht, intBits_in 4 _ (by norm_num; omega) (by norm_num; omega)]
    have hl : Low 2 (truncated v) (zx 4 (BitVec.ofInt 64 (truncated v))) := ((Low.of_eq 4 _ (by omega)).zx).mono (by omega) (by omega)
    have hl' : Low 2 (truncated v - 2 ^ 16) (zx 4 (BitVec.ofInt 64 (truncated v))) := hl.congr (by norm_num)
    have := ext_low (ity .short) (truncated v - 2 ^ 16) _ (by decide) ((range_short _).2 (by omega)) hl'
    rw [Slimcc.FP.sx_zx, show sx 2 (zx 4 (BitVec.ofInt 64 (truncated v))) = BitVec.ofInt 64 (truncated v - 2 ^ 16) from this]
    exact (Low.of_eq 4 _ (by omega)).zx
  exact ⟨s', h1, (low_inReg (by decide) (by decide) _ _).2 h2⟩

/-- To unsigned int: from 2 ^ 31 on the result is 2 ^ 31. -/
theorem C62_ldouble_uint (sym : Nat → Word) (x : Fl) (v : ℚ) (st : List Fl) (s : FS) (hx : InFp .ldouble x st s) (hv : x.val = some v)
    (hb : 2 ^ 31 ≤ truncated v) :
    ∃ s', frun sym (fromFloat .ldouble (typeId (ity .uint))) none s = some s' ∧ InReg .uint (2 ^ 31) (s'.g.r .ax) := by
  obtain ⟨s', h1, h2, _⟩ := run_f80i32 (sym := sym) x (2 ^ 31) st s hx.2 (by
    rw [roundInt_trunc hv]; unfold intBits; dsimp only; rw [if_neg (by norm_num; omega)]; rfl)
  exact ⟨s', h1, (low_inReg (by decide) (by decide) _ _).2 h2⟩

/-! Between floating types. -/

theorem Rounded.self {F : Fmt} {n : Bool} {m : Nat} {e : ℤ} (h : F.has (.fin n m e)) {v : ℚ} (hv : (Fl.fin n m e).val = some v) : Rounded F v (.fin n m e) := by
  obtain ⟨h1, h2, h3, h4⟩ := h
  have hv' := hv
  rw [val_fin, Option.some.injEq] at hv'
  have hpos := two_zpow_pos e
  refine .near n m e v hv ⟨h1, h2, h3, h4⟩ ?_ ?_ ?_ ?_
  · have ha : |v| = m * 2 ^ e := by
      rw [← hv', mul_assoc, abs_mul, abs_sgn, one_mul, abs_of_nonneg (by positivity)]
    rw [ha]
    have hm : (m : ℚ) + 1 ≤ 2 ^ F.p := by rw [← two_pow_nat]; exact_mod_cast h1
    have he : (2 : ℚ) ^ e ≤ 2 ^ F.emax := zpow_le h3
    have hE : (2 : ℚ) ^ F.emax = 2 * 2 ^ (F.emax - 1) := by
      have := zpow_split (F.emax - 1) 1; rw [sub_add_cancel, zpow_one] at this; rw [this]; ring
    have hq := two_zpow_pos (F.emax - 1)
    have hm0 : (0 : ℚ) ≤ m := by positivity
    calc (m : ℚ) * 2 ^ e ≤ m * 2 ^ F.emax := mul_le_mul_of_nonneg_left he hm0
      _ = 2 * m * 2 ^ (F.emax - 1) := by rw [hE]; ring
      _ < (2 ^ (F.p + 1) - 1) * 2 ^ (F.emax - 1) := by
        apply mul_lt_mul_of_pos_right _ hq
        rw [pow_succ]; linarith
  · intro y w _ _; rw [sub_self, abs_zero]; exact abs_nonneg _
  · intro y w _ _ hne he
    rw [sub_self, abs_zero] at he
    exact absurd (sub_eq_zero.1 (abs_eq_zero.1 he.symm)).symm hne
  · have h0 : (0 : ℚ) ≤ m * 2 ^ e := by positivity
    rw [← hv', mul_assoc]
    cases n
    · exact ⟨fun h => absurd h (by simp only [sgn, Bool.false_eq_true, if_false, one_mul]; linarith), fun _ => rfl⟩
    · exact ⟨fun _ => rfl, fun h => absurd h (by simp only [sgn, if_true]; linarith)⟩

/-- What conversion to a format does to a datum. -/
def ConvertedTo (F : Fmt) (x r : Fl) : Prop :=
  (x = .nan → r = .nan) ∧ (∀ n, x = .inf n → r = .inf n) ∧ (∀ n m e, x = .fin n m e → r = .inf n ∨ ∃ m' e', r = .fin n m' e') ∧
  ∀ v, x.val = some v → Rounded F v r

theorem convertedTo (F : Fmt) (hF : Fmt.Ok F) (x : Fl) : ConvertedTo F x (convert F x) := by
  refine ⟨fun h => by rw [h]; rfl, fun n h => by rw [h]; rfl, fun n m e h => ?_, fun v hv => convert_rounded F hF hv⟩
  rw [h]; exact round_neg F n m e

theorem convertedTo_self (F : Fmt) (x : Fl) (hx : F.has x) : ConvertedTo F x x := by
  refine ⟨id, fun _ h => h, fun n m e h => .inr ⟨m, e, h⟩, fun v hv => ?_⟩
  cases x with
  | nan => simp [Fl.val] at hv
  | inf _ => simp [Fl.val] at hv
  | fin n m e => exact Rounded.self hx hv

/-- A value of a floating type, converted to another, becomes the nearest number of that type, with its sign; an infinity and
"not a number" remain what they are. -/
theorem C62_float_float (sym : Nat → Word) (F G : FTy) (x : Fl) (st : List Fl) (s : FS) (hx : InFp F x st s) (hcw : plainCW s.cw) (hst : st.length < 8) :
    ∃ s' r, frun sym (floatFloat F G) none s = some s' ∧ InFp G r st s' ∧ ConvertedTo G.fmt x r ∧ Undisturbed s s' := by
  have sse : ∀ d : Bool, F = fty d → ∃ s' r, frun sym (floatFloat F G) none s = some s' ∧ InFp G r st s' ∧ ConvertedTo G.fmt x r ∧ Undisturbed s s' := by
    rintro d rfl
    have hx0 := hx
    rw [inFp_iff] at hx
    obtain ⟨rfl, rfl⟩ := hx
    cases G with
    | ldouble =>
      obtain ⟨s', h1, h2, h3⟩ := run_ff80 (sym := sym) d s hst
      exact ⟨s', _, by rw [← h1]; cases d <;> rfl, ⟨convert_has _ ok80 _, h2⟩, convertedTo f80 ok80 _, h3⟩
    | float =>
      cases d with
      | false => exact ⟨s, _, rfl, hx0, convertedTo_self _ _ (datum_has false _), und_refl s⟩
      | true =>
        obtain ⟨s', h1, h2, h3⟩ := run_ff (sym := sym) true s
        exact ⟨s', _, h1, (inFp_iff false _ _ _).2 ⟨h2, h3.1⟩, convertedTo f32 width32.1 _, h3.2⟩
    | double =>
      cases d with
      | true => exact ⟨s, _, rfl, hx0, convertedTo_self _ _ (datum_has true _), und_refl s⟩
      | false =>
        obtain ⟨s', h1, h2, h3⟩ := run_ff (sym := sym) false s
        exact ⟨s', _, h1, (inFp_iff true _ _ _).2 ⟨h2, h3.1⟩, convertedTo f64 width64.1 _, h3.2⟩
  cases F with
  | float => exact sse false rfl
  | double => exact sse true rfl
  | ldouble =>
    cases G with
    | ldouble => exact ⟨s, x, rfl, hx, convertedTo_self _ _ hx.1, und_refl s⟩
    | float =>
      obtain ⟨s', h1, h2, h3⟩ := run_f80f (sym := sym) false x st s hx.2 hcw
      exact ⟨s', _, h1, (inFp_iff false _ _ _).2 ⟨h2, h3.1⟩, convertedTo f32 width32.1 _, h3.2⟩
    | double =>
      obtain ⟨s', h1, h2, h3⟩ := run_f80f (sym := sym) true x st s hx.2 hcw
      exact ⟨s', _, h1, (inFp_iff true _ _ _).2 ⟨h2, h3.1⟩, convertedTo f64 width64.1 _, h3.2⟩

/-- Nothing is lost if the number is one of the other type. -/
theorem C62_exact (F : FTy) (x r y : Fl) (v : ℚ) (h : ConvertedTo F.fmt x r) (hx : x.val = some v) (hy : F.fmt.has y) (hv : y.val = some v) : r.val = some v := by
  have hF : Fmt.Ok F.fmt := by cases F; exact width32.1; exact width64.1; exact ok80
  exact Rounded.exact hF (h.2.2.2 v hx) hy hv

theorem wider_has (F G : Fmt) (hG : Fmt.Ok G) (hp : F.p ≤ G.p) (he : G.emin ≤ F.emin - (G.p - 1)) (hM : F.emax ≤ G.emax) {x : Fl} {v : ℚ} (hx : F.has x) (hv : x.val = some v) :
    ∃ y, G.has y ∧ y.val = some v := by
  cases x with
  | nan => simp [Fl.val] at hv
  | inf _ => simp [Fl.val] at hv
  | fin n m e =>
    obtain ⟨h1, h2, h3, _⟩ := hx
    obtain ⟨y, y1, y2⟩ := representable G n m e hG (lt_of_lt_of_le h1 (Nat.pow_le_pow_right (by omega) hp)) (by omega) (by omega)
    exact ⟨y, y1, by rw [y2, hv]⟩

/-- float to double and long double, double to long double: nothing is ever lost. -/
theorem C62_widening (sym : Nat → Word) (F G : FTy) (hw : (F, G) = (.float, .double) ∨ (F, G) = (.float, .ldouble) ∨ (F, G) = (.double, .ldouble))
    (x : Fl) (v : ℚ) (st : List Fl) (s : FS) (hx : InFp F x st s) (hv : x.val = some v) (hcw : plainCW s.cw) (hst : st.length < 8) :
    ∃ s' r, frun sym (floatFloat F G) none s = some s' ∧ InFp G r st s' ∧ r.val = some v := by
  obtain ⟨s', r, h1, h2, h3, _⟩ := C62_float_float sym F G x st s hx hcw hst
  refine ⟨s', r, h1, h2, ?_⟩
  rcases hw with h | h | h <;> (obtain ⟨rfl, rfl⟩ := Prod.mk.inj h)
  · have hh : f32.has x := by have := datum_has false (s.xmm 0); rwa [((inFp_iff false _ _ _).1 hx).1] at this
    obtain ⟨y, hy, hyv⟩ := wider_has f32 f64 width64.1 (by decide) (by decide) (by decide) hh hv
    exact C62_exact .double x r y v h3 hv hy hyv
  · have hh : f32.has x := by have := datum_has false (s.xmm 0); rwa [((inFp_iff false _ _ _).1 hx).1] at this
    obtain ⟨y, hy, hyv⟩ := wider_has f32 f80 ok80 (by decide) (by decide) (by decide) hh hv
    exact C62_exact .ldouble x r y v h3 hv hy hyv
  · have hh : f64.has x := by have := datum_has true (s.xmm 0); rwa [((inFp_iff true _ _ _).1 hx).1] at this
    obtain ⟨y, hy, hyv⟩ := wider_has f64 f80 ok80 (by decide) (by decide) (by decide) hh hv
    exact C62_exact .ldouble x r y v h3 hv hy hyv

/-! Cases. -/

/-- A state with a word in %rax, a word in %xmm0 and a stack; the control word is that of a new process. -/
def fpState (ax xmm0 : Word) (st : List Fl) : FS :=
  ⟨⟨fun r => if r = .ax then ax else if r = rsp then 0x7ffffffde000 else 0, fun _ => 0, none⟩, fun i => if i = 0 then xmm0 else 0, st, 0x37f, none⟩

/-- The greatest unsigned long to float: 2 ^ 64. -/
example (sym : Nat → Word) : ∃ s', frun sym (toFloat (typeId (ity .ulong)) .float) none (fpState (BitVec.ofInt 64 (2 ^ 64 - 1)) 0 []) = some s' ∧
    InFp .float (.fin false (2 ^ 23) 41) [] s' := by
  obtain ⟨s', r, h1, h2, h3, _⟩ := C62_to_float sym .ulong .float (2 ^ 64 - 1) (fpState (BitVec.ofInt 64 (2 ^ 64 - 1)) 0 []) (by decide)
    ((full_inReg (by decide) _ _).2 rfl) (by decide) (by decide)
  refine ⟨s', h1, ?_⟩
  have h := run_u64f (sym := sym) false (fpState (BitVec.ofInt 64 (2 ^ 64 - 1)) 0 [])
  obtain ⟨t, e1, e2, e3, _⟩ := h
  rw [show frun sym (toFloat (typeId (ity .ulong)) .float) none (fpState (BitVec.ofInt 64 (2 ^ 64 - 1)) 0 []) = some t from e1, Option.some.injEq] at h1
  subst h1
  refine (inFp_iff false _ _ _).2 ⟨?_, e3⟩
  rw [e2]
  decide +kernel

/-- -2.5 as a double. -/
def fpHalf : Fl := .fin true (5 * 2 ^ 50) (-51)

theorem fpHalf_val : fpHalf.val = some (-5 / 2) := by
  unfold fpHalf
  rw [val_fin, show (-51 : ℤ) = -((51 : Nat) : ℤ) from rfl, zpow_neg, zpow_natCast]
  norm_num [sgn]

theorem fpHalf_trunc : truncated (-5 / 2) = -2 := by
  unfold truncated
  rw [if_neg (by norm_num)]
  exact Int.ceil_eq_iff.2 ⟨by norm_num, by norm_num⟩

/-- -2.5 to int: -2. -/
example (sym : Nat → Word) : ∃ s', frun sym (fromFloat .double (typeId (ity .int))) none (fpState 0 0xC004000000000000 []) = some s' ∧
    InReg .int (-2) (s'.g.r .ax) := by
  obtain ⟨s', h1, h2, _⟩ := C62_from_float sym .double .int fpHalf (-5 / 2) [] (fpState 0 0xC004000000000000 []) ⟨by decide +kernel, rfl⟩ fpHalf_val
    ⟨by decide, by rw [fpHalf_trunc]; decide⟩ (fun h => absurd h (by decide)) (by decide) (by decide)
  exact ⟨s', h1, by rw [fpHalf_trunc] at h2; exact h2⟩

/-- An integer. -/
theorem trunc_int (z : ℤ) : truncated (z : ℚ) = z := by
  unfold truncated; split
  · exact Int.floor_intCast z
  · exact Int.ceil_intCast z

/-- 3.0e9L to unsigned int gives 2147483648. -/
example (sym : Nat → Word) : ∃ s', frun sym (fromFloat .ldouble (typeId (ity .uint))) none (fpState 0 0 [.fin false (3000000000 * 2 ^ 32) (-32)]) = some s' ∧
    ¬ InReg .uint 3000000000 (s'.g.r .ax) := by
  have hv : (Fl.fin false (3000000000 * 2 ^ 32) (-32)).val = some ((3000000000 : ℤ) : ℚ) := by
    rw [val_fin, show (-32 : ℤ) = -((32 : Nat) : ℤ) from rfl, zpow_neg, zpow_natCast]; norm_num [sgn]
  obtain ⟨s', h1, h2⟩ := C62_ldouble_uint sym (.fin false (3000000000 * 2 ^ 32) (-32)) _ [] (fpState 0 0 [.fin false (3000000000 * 2 ^ 32) (-32)]) ⟨⟨by decide +kernel, by decide, by decide, .inl (by decide +kernel)⟩, rfl⟩ hv (by rw [trunc_int]; norm_num)
  refine ⟨s', h1, fun h => ?_⟩
  rw [low_inReg (by decide) (by decide)] at h h2
  exact absurd (h.symm.trans h2) (by decide)

/-- 40000.0L to unsigned short, taken as an int, gives -25536. -/
example (sym : Nat → Word) : ∃ s', frun sym (fromFloat .ldouble (typeId (ity .ushort))) none (fpState 0 0 [.fin false (40000 * 2 ^ 48) (-48)]) = some s' ∧
    InReg .int (-25536) (s'.g.r .ax) := by
  have hv : (Fl.fin false (40000 * 2 ^ 48) (-48)).val = some ((40000 : ℤ) : ℚ) := by
    rw [val_fin, show (-48 : ℤ) = -((48 : Nat) : ℤ) from rfl, zpow_neg, zpow_natCast]; norm_num [sgn]
  obtain ⟨s', h1, h2⟩ := C62_ldouble_ushort sym (.fin false (40000 * 2 ^ 48) (-48)) _ [] (fpState 0 0 [.fin false (40000 * 2 ^ 48) (-48)]) ⟨⟨by decide +kernel, by decide, by decide, .inl (by decide +kernel)⟩, rfl⟩ hv (by rw [trunc_int]; decide) (by rw [trunc_int]; norm_num)
  refine ⟨s', h1, ?_⟩
  rw [trunc_int] at h2
  exact ⟨h2.1, fun h => absurd h (by decide)⟩

/-- -1.0L to short gives 255. -/
example (sym : Nat → Word) : ∃ s', frun sym (fromFloat .ldouble (typeId (ity .short))) none (fpState 0 0 [.fin true (2 ^ 63) (-63)]) = some s' ∧
    InReg .short 255 (s'.g.r .ax) := by
  have hv : (Fl.fin true (2 ^ 63) (-63)).val = some ((-1 : ℤ) : ℚ) := by
    rw [val_fin, show (-63 : ℤ) = -((63 : Nat) : ℤ) from rfl, zpow_neg, zpow_natCast]; norm_num [sgn]
  obtain ⟨s', h1, h2⟩ := C62_ldouble_short sym (.fin true (2 ^ 63) (-63)) _ [] (fpState 0 0 [.fin true (2 ^ 63) (-63)]) ⟨⟨by decide +kernel, by decide, by decide, .inl (by decide +kernel)⟩, rfl⟩ hv (by rw [trunc_int]; decide)
  rw [trunc_int] at h2
  exact ⟨s', h1, h2⟩

/-- The double -2.5 to long double and float. -/
example (sym : Nat → Word) : ∃ s' r, frun sym (floatFloat .double .ldouble) none (fpState 0 0xC004000000000000 []) = some s' ∧ InFp .ldouble r [] s' ∧
    r.val = some (-5 / 2) :=
  C62_widening sym .double .ldouble (.inr (.inr rfl)) fpHalf _ [] _ ⟨by decide +kernel, rfl⟩ fpHalf_val (by decide) (by decide)

end Slimcc.Props
