import Verif.Lemmas.FpFold
/-! C63: the code of an expression with floating operands computes its value. -/
set_option autoImplicit false
namespace Slimcc.Props
open Slimcc.Spec Slimcc.Spec.CTy Slimcc.Spec.FP Slimcc.X86 Slimcc.Ty Slimcc.Gen Slimcc.FP

/-- Every cast of a long double to short, unsigned short or unsigned int is one C62 is about. -/
def SoundCasts (Γ : Nat → VTy) (σ : Nat → Val) : FE → Prop
  | .var _ => True
  | .inum .. => True
  | .num .. => True
  | .neg e => SoundCasts Γ σ e
  | .bin _ a b => SoundCasts Γ σ a ∧ SoundCasts Γ σ b
  | .cmp _ a b => SoundCasts Γ σ a ∧ SoundCasts Γ σ b
  | .not e => SoundCasts Γ σ e
  | .cast t e => SoundCasts Γ σ e ∧ ∀ f T x v, e.ty Γ = .flo f → t = .int T → Eval Γ σ e (.f x) → x.val = some v → Sound f T (truncated v)

theorem fair_of {Γ : Nat → VTy} {σ : Nat → Val} (hσ : ∀ x, HasTy (Γ x) (σ x)) (opt : Bool) (e : FE) : e.Ok Γ → SoundCasts Γ σ e →
    (opt = true → Kept Γ σ e ∧ Comparable Γ σ e) → Fair opt Γ σ e := by
  induction e with
  | var x => exact fun _ _ _ => trivial
  | inum t z => exact fun _ _ _ => trivial
  | num f c => exact fun _ _ _ => trivial
  | neg e ih => exact fun h hs ho => ⟨ih h.1 hs ho, fun o => fold_ok hσ _ h (ho o).1⟩
  | bin op a b iha ihb =>
    exact fun h hs ho => ⟨iha h.1 hs.1 fun o => ⟨(ho o).1.1, (ho o).2.1⟩, ihb h.2.1 hs.2 fun o => ⟨(ho o).1.2.1, (ho o).2.2⟩, fun o => fold_ok hσ _ h (ho o).1⟩
  | cmp op a b iha ihb =>
    exact fun h hs ho => ⟨iha h.1 hs.1 fun o => ⟨(ho o).1.1, (ho o).2.1⟩, ihb h.2.1 hs.2 fun o => ⟨(ho o).1.2, (ho o).2.2⟩, fun o => fold_ok hσ _ h (ho o).1⟩
  | not e ih => exact fun h hs ho => ⟨ih h.1 hs fun o => ⟨(ho o).1, (ho o).2.1⟩, fun o => ⟨fold_ok hσ _ h (ho o).1, (ho o).2.2⟩⟩
  | cast t e ih =>
    intro h hs ho
    refine ⟨ih ?_ hs.1 fun o => ⟨(ho o).1.1, (ho o).2⟩, fun o => fold_ok hσ _ h (ho o).1, hs.2⟩
    cases t with
    | flo f => exact h
    | int t => exact h.1

/-- The code of a well-typed expression ends with the expression's value in place, and changes nothing but scratch registers,
its temporaries and the 24 bytes below the stack pointer. With optimization on, constants must be `Kept` in long double and
operands of relations below `!` must be numbers. -/
theorem C63_expression (opt : Bool) (E : FEnv) (hE : E.Ok) (σ : Nat → Val) (e : FE) (v : Val) (n : Nat) (s : FS)
    (h : e.Ok E.Γ) (hv : Eval E.Γ σ e v) (hc : SoundCasts E.Γ σ e) (ho : opt = true → Kept E.Γ σ e ∧ Comparable E.Γ σ e)
    (hs : Within E σ n s) (hn : n ≤ 5) (hK : (genF opt E.Γ E.loc E.stk e).st ≤ E.K) :
    ∃ s', frun E.sym (genF opt E.Γ E.loc E.stk e).code none s = some s' ∧ InPlace (e.ty E.Γ) v n s' ∧
      Leaves E (genF opt E.Γ E.loc E.stk e).st (genF opt E.Γ E.loc E.stk e).fp s s' := by
  have hσ : ∀ x, HasTy (E.Γ x) (σ x) := fun x => at_has (hs.mem x)
  exact (gen_gives opt hE hσ n hn e h (fair_of hσ opt e h hc ho)).1 v hv hK s hs

/-- Without optimization there is no such condition. -/
theorem C63_unoptimized (E : FEnv) (hE : E.Ok) (σ : Nat → Val) (e : FE) (v : Val) (n : Nat) (s : FS)
    (h : e.Ok E.Γ) (hv : Eval E.Γ σ e v) (hc : SoundCasts E.Γ σ e) (hs : Within E σ n s) (hn : n ≤ 5) (hK : (genF false E.Γ E.loc E.stk e).st ≤ E.K) :
    ∃ s', frun E.sym (genF false E.Γ E.loc E.stk e).code none s = some s' ∧ InPlace (e.ty E.Γ) v n s' ∧
      Leaves E (genF false E.Γ E.loc E.stk e).st (genF false E.Γ E.loc E.stk e).fp s s' :=
  C63_expression false E hE σ e v n s h hv hc (fun h => absurd h (by decide)) hs hn hK

/-- The variables keep their values. -/
theorem C63_variables (E : FEnv) (hE : E.Ok) (σ : Nat → Val) (n k f : Nat) (s s' : FS) (hs : Within E σ n s) (hk : k ≤ E.K) (h : Leaves E k f s s') (x : Nat) :
    At (E.Γ x) (σ x) (E.addr x) s'.g.m :=
  (within_leaves (n' := s'.st.length) hE hk hs h (le_refl _)).mem x

/-- An expression has one value at most. -/
theorem C63_one_value (Γ : Nat → VTy) (σ : Nat → Val) (e : FE) (v w : Val) (hv : Eval Γ σ e v) (hw : Eval Γ σ e w) : v = w := by
  induction hv generalizing w with
  | var x => cases hw; rfl
  | inum t z => cases hw; rfl
  | num f c => cases hw; rfl
  | neg _ ih => cases hw with | neg h => cases ih _ h; rfl
  | @bin op a b f x y r _ _ hf hr iha ihb =>
    cases hw with
    | @bin _ _ _ f' _ _ r' h1 h2 hf' hr' =>
      cases iha _ h1; cases ihb _ h2
      have : f' = f := by rw [hf] at hf'; cases hf'; rfl
      subst this
      rw [result_unique hr hr']
  | cmpT _ _ hh iha ihb =>
    cases hw with
    | cmpT => rfl
    | cmpF h1 h2 h3 => cases iha _ h1; cases ihb _ h2; exact absurd hh h3
  | cmpF _ _ hh iha ihb =>
    cases hw with
    | cmpF => rfl
    | cmpT h1 h2 h3 => cases iha _ h1; cases ihb _ h2; exact absurd h3 hh
  | not _ ih => cases hw with | not h => cases ih _ h; rfl
  | @ofInt f e z r _ hr ih =>
    cases hw with
    | ofInt h hr' => cases ih _ h; rw [fromInt_unique (fmt_ok f) hr hr']
    | ofFlo h hr' => cases ih _ h
  | @ofFlo f e x r _ hr ih =>
    cases hw with
    | ofInt h hr' => cases ih _ h
    | ofFlo h hr' => cases ih _ h; rw [converted_unique (fmt_ok f) hr hr']
  | @toInt t e x v _ hb hx _ ih =>
    cases hw with
    | toInt h _ hx' _ => cases ih _ h; rw [hx, Option.some.injEq] at hx'; rw [hx']
    | toBool h => exact absurd rfl hb
  | toBool _ ih =>
    cases hw with
    | toInt h hb _ _ => exact absurd rfl hb
    | toBool h => cases ih _ h; rfl

/-- With optimization `!(a < b)` is compiled as `a >= b`, and likewise for the other relations: if an operand is not a number,
the result is 0 where C has 1. -/
theorem C63_not_nan (E : FEnv) (hE : E.Ok) (σ : Nat → Val) (op : FCmp) (a b : Nat) (f : FTy) (x y : Fl) (n : Nat) (s : FS)
    (hop : op ≠ .eq ∧ op ≠ .ne) (ha : E.Γ a = .flo f) (hb : E.Γ b = .flo f) (hx : σ a = .f x) (hy : σ b = .f y) (hnan : x = .nan ∨ y = .nan)
    (hs : Within E σ n s) (hn : n ≤ 5) (hK : (genF true E.Γ E.loc E.stk (.not (.cmp op (.var a) (.var b)))).st ≤ E.K) :
    Eval E.Γ σ (.not (.cmp op (.var a) (.var b))) (.i 1) ∧
    ∃ s', frun E.sym (genF true E.Γ E.loc E.stk (.not (.cmp op (.var a) (.var b)))).code none s = some s' ∧ InPlace (.int .int) (.i 0) n s' := by
  have hh : ∀ op : FCmp, op.Holds x y ↔ op = .ne := by
    intro op
    unfold FCmp.Holds
    rcases hnan with h | h
    · rw [(place_nan _).2 h]
    · rw [(place_nan _).2 h]; cases x.place <;> exact Iff.rfl
  have hxa : Eval E.Γ σ (.var a) (.f x) := hx ▸ Eval.var a
  have hyb : Eval E.Γ σ (.var b) (.f y) := hy ▸ Eval.var b
  refine ⟨Eval.not (Eval.cmpF hxa hyb (by rw [hh]; exact hop.2)), ?_⟩
  have hc : constI true E.Γ (.not (.cmp op (.var a) (.var b))) = none := by simp [constI, foldI, foldD]
  have hg : genF true E.Γ E.loc E.stk (.not (.cmp op (.var a) (.var b))) =
      operands E.stk f (genF true E.Γ E.loc E.stk (.var a)) (genF true E.Γ E.loc E.stk (.var b)) (comparison f (flipCmp op)) := by
    conv_lhs => rw [genF, hc]
    dsimp only
    conv_lhs => rw [if_pos rfl, genNot, if_pos rfl]
    show operands _ (fltTy (E.Γ a)) _ _ (comparison (fltTy (E.Γ a)) _) = _
    rw [ha]; rfl
  rw [hg] at hK ⊢
  have hσ : ∀ x, HasTy (E.Γ x) (σ x) := fun x => at_has (hs.mem x)
  have ga : Gives E σ n (.flo f) (.f x) (genF true E.Γ E.loc E.stk (.var a)) := by
    have := typed_var (σ := σ) (opt := true) hE a n; rw [ha, hx] at this; rw [genF, ha]; exact this
  have gb : Gives E σ n (.flo f) (.f y) (genF true E.Γ E.loc E.stk (.var b)) := by
    have := typed_var (σ := σ) (opt := true) hE b n; rw [hb, hy] at this; rw [genF, hb]; exact this
  obtain ⟨s', h1, h2, _⟩ := compare_run hE f (flipCmp op) _ _ x y n (by omega) ga gb hK s hs
  refine ⟨s', h1, inReg_eq .int ?_, h2.2⟩
  rw [h2.1]
  have : ¬ (flipCmp op).Holds x y := by
    rw [hh]
    cases op <;> simp [FP.flipCmp] at hop ⊢
  unfold numOf
  rw [if_neg this]

theorem fx_add (x y : Fl) : FBin.add.Result FTy.double.fmt x y (add f64 x y) := add_sum _ width64.1 _ _
theorem fx_sub (x y : Fl) : FBin.sub.Result FTy.double.fmt x y (sub f64 x y) := sub_sum _ width64.1 _ _
theorem fx_mul (x y : Fl) : FBin.mul.Result FTy.double.fmt x y (mul f64 x y) := mul_product _ width64.1 _ _
theorem fx_div (x y : Fl) : FBin.div.Result FTy.double.fmt x y (div f64 x y) := div_quotient _ width64.1 _ _

/-- With optimization constants of type double are computed in long double and rounded twice: a sum of two constants whose code
loads 1, where C's value, and that of the sum of two variables, is the next double. -/
theorem C63_folded_twice : ∃ (c d r k : Fl), f64.has c ∧ f64.has d ∧ (∀ Γ σ, Eval Γ σ (.bin .add (.num .double c) (.num .double d)) (.f r)) ∧
    (∀ Γ, foldD Γ (.bin .add (.num .double c) (.num .double d)) = some k) ∧ convert f64 k ≠ r := by
  refine ⟨.fin false (2 ^ 52) (-52), .fin false (2 ^ 52 + 1) (-105), .fin false (2 ^ 52 + 1) (-52), .fin false (2 ^ 63) (-63),
    ⟨by decide, by decide, by decide, .inl (by decide)⟩, ⟨by decide, by decide, by decide, .inl (by decide)⟩, fun Γ σ => ?_, fun Γ => ?_, by decide +kernel⟩
  · refine Eval.bin (f := .double) (.num _ _) (.num _ _) rfl ?_
    have : add f64 (.fin false (2 ^ 52) (-52)) (.fin false (2 ^ 52 + 1) (-105)) = .fin false (2 ^ 52 + 1) (-52) := by decide +kernel
    exact this ▸ fx_add _ _
  · have : fpCast .double (hostOp .add (asLong (.fin false (2 ^ 52) (-52))) (asLong (.fin false (2 ^ 52 + 1) (-105)))) = .fin false (2 ^ 63) (-63) := by
      decide +kernel
    simp only [foldD, FE.ty]
    rw [this]

/-- With optimization an integer constant converted to a floating type is not rounded: `(float)16777217 == 16777216.0f` gives 0
where C has 1. -/
theorem C63_folded_int : (∀ Γ σ, Eval Γ σ (.cmp .eq (.cast (.flo .float) (.inum .int 16777217)) (.num .float (.fin false (2 ^ 23) 1))) (.i 1)) ∧
    ∀ Γ, foldI Γ (.cmp .eq (.cast (.flo .float) (.inum .int 16777217)) (.num .float (.fin false (2 ^ 23) 1))) = some 0 := by
  constructor
  · intro Γ σ
    refine Eval.cmpT (x := .fin false (2 ^ 23) 1) (y := .fin false (2 ^ 23) 1) (.ofInt (.inum _ _) ⟨?_, fun h => absurd h (by decide)⟩) (.num _ _) ?_
    · have : ofInt f32 16777217 = .fin false (2 ^ 23) 1 := by decide +kernel
      exact this ▸ ofInt_rounded f32 width32.1 16777217
    · unfold FCmp.Holds
      rw [place_fin]
  · intro Γ
    have : hostCmp .eq (ofInt f80 16777217) (asLong (.fin false (2 ^ 23) 1)) = false := by decide +kernel
    simp only [foldI, foldD, FE.ty, Option.map_some, this]
    rfl

/-! Concrete cases. -/

/-- A frame with two doubles and room for four temporaries. -/
def fxEnv : FEnv := ⟨fun _ => .flo .double, fun x => .frame (if x = 0 then -8 else -16), 16, 4, fun _ => 0, 0x7fffffffe000, 0x7fffffffdf00⟩

theorem fxEnv_addr (x : Nat) : fxEnv.addr x = if x = 0 then 0x7fffffffdff8#64 else 0x7fffffffdff0#64 := by
  show 0x7fffffffe000#64 + BitVec.ofInt 64 (if x = 0 then -8 else -16) = _
  split <;> decide

theorem fxEnv_ok : fxEnv.Ok := by
  have sl : ∀ k, k < 4 → fxEnv.slot k = 0x7fffffffdfe8#64 - BitVec.ofNat 64 (8 * k) := by
    intro k hk
    have : k = 0 ∨ k = 1 ∨ k = 2 ∨ k = 3 := by omega
    rcases this with rfl | rfl | rfl | rfl <;> decide
  refine ⟨fun x => .inl ⟨_, rfl⟩, fun x k hk c => ?_, fun x c => ?_, fun k hk c => ?_, by decide⟩
  · have hk : k < 4 := hk
    rw [fxEnv_addr, sl k hk]
    show ¬ (InBlk _ 8 c ∧ _)
    unfold InBlk
    split <;> bv_omega
  · rw [fxEnv_addr]
    show ¬ (InBlk _ 8 c ∧ InBlk (0x7fffffffdf00#64 - 24) 24 c)
    unfold InBlk
    split <;> bv_omega
  · have hk : k < 4 := hk
    rw [sl k hk]
    show ¬ (InBlk _ 8 c ∧ InBlk (0x7fffffffdf00#64 - 24) 24 c)
    unfold InBlk
    bv_omega

/-- The doubles with the given bytes at their end. -/
def fxState (a b c d : BitVec 8) : FS :=
  ⟨⟨fun r => if r = .bp then 0x7fffffffe000 else if r = rsp then 0x7fffffffdf00 else 0,
    fun p => if p = 0x7fffffffdfff then a else if p = 0x7fffffffdffe then b else if p = 0x7fffffffdff7 then c else if p = 0x7fffffffdff6 then d else 0, none⟩,
    fun _ => 0, [], 0x37f, none⟩

/-- 1.5 and 2.5. -/
def fxStore (x : Nat) : Val := .f (if x = 0 then .fin false (3 * 2 ^ 51) (-52) else .fin false (5 * 2 ^ 50) (-51))

theorem fxWithin : Within fxEnv fxStore 0 (fxState 0x3f 0xf8 0x40 0x04) := by
  refine ⟨rfl, rfl, rfl, by decide, fun x => ?_⟩
  rw [fxEnv_addr]
  show decode f64 64 (rd _ _ 8).toNat = if x = 0 then _ else _
  by_cases h : x = 0
  · rw [if_pos h, if_pos h]; decide +kernel
  · rw [if_neg h, if_neg h]; decide +kernel

/-- `a * b - a / b`. -/
def fxExpr : FE := .bin .sub (.bin .mul (.var 0) (.var 1)) (.bin .div (.var 0) (.var 1))

/-- 3.75 minus 0.6, rounded. -/
def fxResult : Fl := sub f64 (mul f64 (.fin false (3 * 2 ^ 51) (-52)) (.fin false (5 * 2 ^ 50) (-51))) (div f64 (.fin false (3 * 2 ^ 51) (-52)) (.fin false (5 * 2 ^ 50) (-51)))

theorem fxEval : Eval fxEnv.Γ fxStore fxExpr (.f fxResult) :=
  .bin (f := .double) (.bin (f := .double) (.var 0) (.var 1) rfl (fx_mul _ _)) (.bin (f := .double) (.var 0) (.var 1) rfl (fx_div _ _)) rfl (fx_sub _ _)

example : fxResult = .fin false 7093169413108531 (-51) := by decide +kernel

example (opt : Bool) : ∃ s', frun fxEnv.sym (genF opt fxEnv.Γ fxEnv.loc fxEnv.stk fxExpr).code none (fxState 0x3f 0xf8 0x40 0x04) = some s' ∧
    InPlace (.flo .double) (.f fxResult) 0 s' := by
  obtain ⟨s', h1, h2, _⟩ := C63_expression opt fxEnv fxEnv_ok fxStore fxExpr _ 0 _
    ⟨⟨trivial, trivial, .double, rfl, rfl⟩, ⟨trivial, trivial, .double, rfl, rfl⟩, .double, rfl, rfl⟩ fxEval ⟨⟨trivial, trivial⟩, ⟨trivial, trivial⟩⟩
    (fun _ => ⟨⟨⟨trivial, trivial, fun h => absurd h (by decide)⟩, ⟨trivial, trivial, fun h => absurd h (by decide)⟩, fun h => absurd h (by decide)⟩,
      ⟨trivial, trivial⟩, ⟨trivial, trivial⟩⟩) fxWithin (by decide) (by cases opt <;> decide)
  exact ⟨s', h1, h2⟩

/-- `!(a < b)` with 1.5 and "not a number". -/
example : ∃ s', frun fxEnv.sym (genF true fxEnv.Γ fxEnv.loc fxEnv.stk (.not (.cmp .lt (.var 0) (.var 1)))).code none (fxState 0x3f 0xf8 0x7f 0xf8) = some s' ∧
    InPlace (.int .int) (.i 0) 0 s' := by
  refine (C63_not_nan fxEnv fxEnv_ok (fun x => .f (if x = 0 then .fin false (3 * 2 ^ 51) (-52) else .nan)) .lt 0 1 .double _ .nan 0 _ (by decide) rfl rfl rfl rfl
    (.inr rfl) ⟨rfl, rfl, rfl, by decide, fun x => ?_⟩ (by decide) (by decide)).2
  rw [fxEnv_addr]
  show decode f64 64 (rd _ _ 8).toNat = if x = 0 then _ else _
  by_cases h : x = 0
  · rw [if_pos h, if_pos h]; decide +kernel
  · rw [if_neg h, if_neg h]; decide +kernel

/-- Constants: `(int)(1.5L * 2.5L)` is folded to 3. -/
example : foldI (fun _ => .flo .double) (.cast (.int .int) (.bin .mul (.num .ldouble (.fin false (3 * 2 ^ 62) (-63))) (.num .ldouble (.fin false (5 * 2 ^ 61) (-62))))) = some 3 := by
  have : hostInt .int (fpCast .ldouble (hostOp .mul (asLong (.fin false (3 * 2 ^ 62) (-63))) (asLong (.fin false (5 * 2 ^ 61) (-62))))) = 3 := by decide +kernel
  simp only [foldI, foldD, FE.ty, Option.map_some, this]

end Slimcc.Props
