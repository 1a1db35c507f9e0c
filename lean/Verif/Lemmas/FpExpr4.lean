import Verif.Lemmas.FpExpr3
import Verif.Spec.FpFold
/-! The code of a floating expression gives its value. -/
set_option autoImplicit false
namespace Slimcc.FP
open Slimcc.Spec Slimcc.Spec.CTy Slimcc.Spec.FP Slimcc.X86 Slimcc.Ty Slimcc.Gen

/-! Values are of their types. -/

/-- Values of a type. -/
def HasTy (t : VTy) (v : Val) : Prop :=
  match t, v with
  | .int t, .i z => InRange t z
  | .flo f, .f x => f.fmt.has x
  | _, _ => False

theorem at_has {t : VTy} {v : Val} {a : Word} {m : Mem} (h : At t v a m) : HasTy t v := by
  cases t with
  | int t => cases v with
    | i z => exact h.1
    | f x => exact h
  | flo f =>
    cases v with
    | i z => cases f <;> exact h
    | f x =>
      cases f with
      | float => exact (show decode f32 32 _ = x from h) ▸ decode_has width32 _
      | double => exact (show decode f64 64 _ = x from h) ▸ decode_has width64 _
      | ldouble => exact h.1

theorem converted_has {F : Fmt} (hF : Fmt.Ok F) {x r : Fl} (h : Converted F x r) : F.has r := by
  rw [converted_unique hF h (Props.convertedTo F hF x)]; exact convert_has F hF x

theorem result_has {f : FTy} {op : FBin} {x y r : Fl} (h : op.Result f.fmt x y r) : f.fmt.has r := by
  cases op with
  | add => rw [sum_unique (fmt_ok f) h (add_sum _ (fmt_ok f) _ _)]; exact add_has _ (fmt_ok f) _ _
  | sub => rw [sum_unique (fmt_ok f) h (sub_sum _ (fmt_ok f) _ _)]; exact sub_has _ (fmt_ok f) _ _
  | mul => rw [product_unique (fmt_ok f) h (mul_product _ (fmt_ok f) _ _)]; exact mul_has _ (fmt_ok f) _ _
  | div => rw [quotient_unique (fmt_ok f) h (div_quotient _ (fmt_ok f) _ _)]; exact div_has _ (fmt_ok f) _ _

theorem eval_has {Γ : Nat → VTy} {σ : Nat → Val} (hσ : ∀ x, HasTy (Γ x) (σ x)) {e : FE} {v : Val} (h : Eval Γ σ e v) (hok : e.Ok Γ) : HasTy (e.ty Γ) v := by
  induction h with
  | var x => exact hσ x
  | inum t z => exact hok.2
  | num f c => exact hok
  | @neg e x _ ih =>
    obtain ⟨h1, f, h2⟩ := hok
    have := ih h1
    show HasTy (e.ty Γ) _
    rw [h2] at this ⊢
    cases x <;> exact this
  | @bin op a b f x y r _ _ hf hr _ _ =>
    show HasTy (a.ty Γ) _
    rw [hf]
    exact result_has hr
  | cmpT _ _ _ => show InRange .int 1; decide
  | cmpF _ _ _ => show InRange .int 0; decide
  | @not e z _ _ => show InRange .int (if z = 0 then 1 else 0); split <;> decide
  | @ofInt f e z r _ hr _ => exact rounded_has hr.1
  | @ofFlo f e x r _ hr _ => exact converted_has (fmt_ok f) hr
  | toInt _ _ _ hr _ => exact hr
  | @toBool e x _ _ => show InRange .bool (if x.val = some 0 then 0 else 1); split <;> decide

theorem eval_truth {Γ : Nat → VTy} {σ : Nat → Val} {e : FE} {z : ℤ} (h : Eval Γ σ e (.i z)) (ht : e.truth = true) : z = 0 ∨ z = 1 := by
  generalize hv : Val.i z = v at h
  cases h with
  | var x => exact absurd ht (by simp [FE.truth])
  | inum t z => exact absurd ht (by simp [FE.truth])
  | cmpT => cases hv; exact .inr rfl
  | cmpF => cases hv; exact .inl rfl
  | @not e z _ => cases hv; split <;> simp
  | @toInt t e x v _ hb =>
    exfalso
    cases t <;> first | exact hb rfl | exact absurd ht (by simp [FE.truth])
  | toBool => cases hv; split <;> simp
  | _ => cases hv

/-! What the theorem asks for. -/

/-- Where the expression is constant, what the compiler computes is its value. -/
def FoldOk (Γ : Nat → VTy) (σ : Nat → Val) (e : FE) : Prop :=
  (∀ f c v, e.ty Γ = .flo f → foldD Γ e = some c → Eval Γ σ e (.f v) → convert f.fmt c = v) ∧
  ∀ z v, foldI Γ e = some z → Eval Γ σ e (.i v) → z = v

/-- The conditions at every operator. -/
def Fair (opt : Bool) (Γ : Nat → VTy) (σ : Nat → Val) : FE → Prop
  | .var _ => True
  | .inum .. => True
  | .num .. => True
  | .neg a => Fair opt Γ σ a ∧ (opt = true → FoldOk Γ σ (.neg a))
  | .bin op a b => Fair opt Γ σ a ∧ Fair opt Γ σ b ∧ (opt = true → FoldOk Γ σ (.bin op a b))
  | .cmp op a b => Fair opt Γ σ a ∧ Fair opt Γ σ b ∧ (opt = true → FoldOk Γ σ (.cmp op a b))
  | .not a => Fair opt Γ σ a ∧ (opt = true → FoldOk Γ σ (.not a) ∧ Ordered Γ σ true a)
  | .cast t a => Fair opt Γ σ a ∧ (opt = true → FoldOk Γ σ (.cast t a)) ∧
      ∀ f T x v, a.ty Γ = .flo f → t = .int T → Eval Γ σ a (.f x) → x.val = some v → Props.Sound f T (truncated v)

/-! Constants. -/

theorem fpCast_has (f : FTy) (x : Fl) : f80.has (fpCast f x) := convert_has _ ok80 _

theorem foldD_has (Γ : Nat → VTy) (e : FE) (c : Fl) (h : foldD Γ e = some c) : f80.has c := by
  induction e generalizing c with
  | var x => rw [foldD] at h; exact absurd h (by simp)
  | inum t z => rw [foldD] at h; exact absurd h (by simp)
  | num f d => rw [foldD, Option.some.injEq] at h; rw [← h]; exact convert_has _ ok80 _
  | neg e ih =>
    rw [foldD, Option.map_eq_some_iff] at h
    obtain ⟨d, h1, h2⟩ := h
    rw [← h2]; exact neg_has (ih d h1)
  | bin op a b _ _ =>
    rw [foldD] at h
    split at h
    · rw [Option.some.injEq] at h; rw [← h]; exact fpCast_has _ _
    · exact absurd h (by simp)
  | cmp op a b _ _ => rw [foldD] at h; exact absurd h (by simp)
  | not e _ => rw [foldD] at h; exact absurd h (by simp)
  | cast t e _ =>
    cases t with
    | int t => simp [foldD] at h
    | flo f =>
      cases ht : e.ty Γ with
      | flo g =>
        simp only [foldD, ht, Option.map_eq_some_iff] at h
        obtain ⟨d, h1, h2⟩ := h
        rw [← h2]; exact fpCast_has _ _
      | int t =>
        simp only [foldD, ht, Option.map_eq_some_iff] at h
        obtain ⟨d, h1, h2⟩ := h
        rw [← h2]; exact ofInt_has _ ok80 _

/-- A constant survives the compiler's long double. -/
theorem convert_back (f : FTy) {c : Fl} (h : f.fmt.has c) : convert f.fmt (asLong c) = c := by
  unfold asLong
  cases c with
  | nan => rfl
  | inf n => rfl
  | fin n m e =>
    have hF := fmt_ok f
    have hw : ∃ y, f80.has y ∧ y.val = (Fl.fin n m e).val := by
      obtain ⟨v, hv⟩ : ∃ v, (Fl.fin n m e).val = some v := ⟨_, rfl⟩
      cases f with
      | float => obtain ⟨y, a, b⟩ := Props.wider_has f32 f80 ok80 (by decide) (by decide) (by decide) h hv; exact ⟨y, a, by rw [b, hv]⟩
      | double => obtain ⟨y, a, b⟩ := Props.wider_has f64 f80 ok80 (by decide) (by decide) (by decide) h hv; exact ⟨y, a, by rw [b, hv]⟩
      | ldouble => exact ⟨_, h, rfl⟩
    obtain ⟨y, hy, hyv⟩ := hw
    obtain ⟨v, hv⟩ : ∃ v, (Fl.fin n m e).val = some v := ⟨_, rfl⟩
    have h1 := convert_rounded f80 ok80 hv
    have h2 : (convert f80 (.fin n m e)).val = some v := Rounded.exact ok80 h1 hy (by rw [hyv, hv])
    have h3 : convert f80 (.fin n m e) = .inf n ∨ ∃ k g, convert f80 (.fin n m e) = .fin n k g := round_neg f80 n m e
    rcases h3 with h3 | ⟨k, g, h3⟩
    · rw [h3] at h2; simp [Fl.val] at h2
    · rw [h3] at h2 ⊢
      refine converted_unique hF (Props.convertedTo f.fmt hF _) ⟨fun h => by simp at h, fun _ h => by simp at h, fun n' m' e' he => ?_, fun w hw => ?_⟩
      · cases he; exact .inr ⟨m, e, rfl⟩
      · rw [h2, Option.some.injEq] at hw
        rw [← hw]; exact Props.Rounded.self h hv

/-! Comparison with zero. -/

theorem place_val (x : Fl) : x.place = some (((0 : ℚ) : WithTop ℚ) : WithBot (WithTop ℚ)) ↔ x.val = some 0 := by
  cases x with
  | nan => simp [Fl.place, Fl.val]
  | inf n =>
    refine ⟨fun h => ?_, fun h => by simp [Fl.val] at h⟩
    cases n
    · exact absurd (WithBot.coe_injective (Option.some.inj h)) (by simp)
    · exact absurd (Option.some.inj h) (by simp)
  | fin n m e =>
    rw [place_fin, val_fin, Option.some.injEq, Option.some.injEq, WithBot.coe_inj, WithTop.coe_inj]

theorem zero_place (F : Fmt) (n : Bool) : (Fl.fin n 0 F.emin).place = some (((0 : ℚ) : WithTop ℚ) : WithBot (WithTop ℚ)) := by
  rw [place_val, val_fin]; simp

theorem zero_convert (f : FTy) : convert f.fmt (.fin false 0 f80.emin) = .fin false 0 f.fmt.emin := round_zero _ _ _

theorem ne_zero (F : Fmt) (x : Fl) : FCmp.ne.Holds x (.fin false 0 F.emin) ↔ ¬ x.val = some 0 := by
  rw [← place_val]
  unfold FCmp.Holds
  rw [zero_place]
  cases h : x.place with
  | none => simp
  | some a => simp

theorem eq_zero (F : Fmt) (x : Fl) : FCmp.eq.Holds x (.fin false 0 F.emin) ↔ x.val = some 0 := by
  rw [← place_val]
  unfold FCmp.Holds
  rw [zero_place]
  cases h : x.place with
  | none => simp
  | some a => simp

theorem place_nan (x : Fl) : x.place = none ↔ x = .nan := by
  cases x with
  | nan => simp [Fl.place]
  | inf n => cases n <;> simp [Fl.place]
  | fin n m e => simp [Fl.place, Fl.val]

theorem flip_holds (op : FCmp) (x y : Fl) (h : op ≠ .eq → op ≠ .ne → x ≠ .nan ∧ y ≠ .nan) : (flipCmp op).Holds x y ↔ ¬ op.Holds x y := by
  by_cases hn : x.place = none ∨ y.place = none
  · have hh : ∀ op : FCmp, op.Holds x y ↔ op = .ne := by
      intro op
      unfold FCmp.Holds
      rcases hn with h | h
      · rw [h]
      · rw [h]; cases x.place <;> exact Iff.rfl
    rw [hh, hh]
    rw [place_nan, place_nan] at hn
    cases op <;> simp [flipCmp] <;> simp at h <;> exact absurd hn (by simp [h])
  · obtain ⟨a, ha⟩ : ∃ a, x.place = some a := Option.ne_none_iff_exists'.1 fun h => hn (.inl h)
    obtain ⟨b, hb⟩ : ∃ b, y.place = some b := Option.ne_none_iff_exists'.1 fun h => hn (.inr h)
    rw [holds_some _ _ _ a b ha hb, holds_some _ _ _ a b ha hb]
    cases op <;> simp [flipCmp]

theorem numOf_not (p q : Prop) (h : p ↔ ¬ q) : numOf p = if numOf q = 0 then 1 else 0 := by
  unfold numOf
  by_cases hq : q
  · rw [if_neg (by simp [h, hq]), if_pos hq, if_neg (by decide)]
  · rw [if_pos (h.2 hq), if_neg hq, if_pos rfl]

section
variable {E : FEnv} {σ : Nat → Val}

theorem inReg_eq (t : CTy) {z : ℤ} {w : Word} (h : w = BitVec.ofInt 64 z) : InReg t z w := (reps_inReg t z w).1 (Reps.of_eq _ _ h)

theorem compare_run (hok : E.Ok) (f : FTy) (op : FCmp) (a b : FOut) (x y : Fl) (n : Nat) (hn : n ≤ 6)
    (ha : Gives E σ n (.flo f) (.f x) a) (hb : Gives E σ n (.flo f) (.f y) b) (hK : (operands E.stk f a b (comparison f op)).st ≤ E.K)
    (s : FS) (hs : Within E σ n s) :
    Runs E.sym (operands E.stk f a b (comparison f op)).code none s fun s' =>
      (s'.g.r .ax = BitVec.ofInt 64 (numOf (op.Holds x y)) ∧ s'.st.length ≤ n) ∧
      Leaves E (operands E.stk f a b (comparison f op)).st (operands E.stk f a b (comparison f op)).fp s s' :=
  operands_run hok f a b _ x y n hn _ ha hb hK (fun r s _ h => comparison_run f op x y n r s h) s hs

theorem cmpZero_run (hok : E.Ok) (f : FTy) (op : FCmp) (a : FOut) (x : Fl) (n : Nat) (hn : n ≤ 6)
    (ha : Gives E σ n (.flo f) (.f x) a) (hK : (cmpZero E.stk op f a).st ≤ E.K) (s : FS) (hs : Within E σ n s) :
    Runs E.sym (cmpZero E.stk op f a).code none s fun s' =>
      (s'.g.r .ax = BitVec.ofInt 64 (numOf (op.Holds x (.fin false 0 f.fmt.emin))) ∧ s'.st.length ≤ n) ∧
      Leaves E (cmpZero E.stk op f a).st (cmpZero E.stk op f a).fp s s' :=
  compare_run hok f op a _ x _ n hn ha (fun s hs => by
    have := loadFval_run (E := E) (σ := σ) f _ (zero_has false) n s hs
    rw [zero_convert] at this
    exact this) hK s hs

/-- Code behind code. -/
theorem gives_then {n : Nat} {t t' : VTy} {v v' : Val} {o : FOut} {l : List FLine} (hok : E.Ok) (hK : o.st ≤ E.K) (h : Gives E σ n t v o) (hn : n + 1 ≤ 8)
    (hl : ∀ s, Within E σ (n + 1) s → InPlace t v n s → Runs E.sym l none s fun s' => InPlace t' v' n s' ∧ Leaves E 0 0 s s') :
    Gives E σ n t' v' ⟨o.code ++ l, o.fp, o.st⟩ := by
  intro s hs
  refine runs_append (h s hs) fun s1 h1 => ?_
  have w : Within E σ (n + 1) s1 := within_leaves hok hK hs h1.2 (by
    have h2 := h1.1
    cases t with
    | int t => cases v with
      | i z => exact le_trans h2.2 (by omega)
      | f x => exact h2.elim
    | flo f => cases v with
      | i z => exact h2.elim
      | f x =>
        obtain ⟨st, ha, hb⟩ := h2
        cases f with
        | float => rw [ha.2]; omega
        | double => rw [ha.2]; omega
        | ldouble => rw [ha.2, List.length_cons]; omega)
  exact runs_imp (hl s1 w h1.1) fun s' h' => ⟨h'.1, leaves_trans h1.2 (leaves_mono h'.2 (by omega) (by omega))⟩

theorem gives_num {n : Nat} {f : FTy} {c v : Fl} (hc : f80.has c) (hv : convert f.fmt c = v) : Gives E σ n (.flo f) (.f v) (plain (loadFval f c)) := by
  intro s hs
  rw [← hv]; exact loadFval_run f c hc n s hs

theorem gives_int {n : Nat} {t : CTy} {z : ℤ} (hz : InRange t z) : Gives E σ n (.int t) (.i z) (loadInt t z) := fun s hs => loadInt_run t z hz n s hs

theorem constD_some {opt : Bool} {Γ : Nat → VTy} {e : FE} {c : Fl} (h : constD opt Γ e = some c) : opt = true ∧ foldD Γ e = some c := by
  unfold constD at h; cases opt
  · exact absurd h (by simp)
  · exact ⟨rfl, by simpa using h⟩
theorem constI_some {opt : Bool} {Γ : Nat → VTy} {e : FE} {c : ℤ} (h : constI opt Γ e = some c) : opt = true ∧ foldI Γ e = some c := by
  unfold constI at h; cases opt
  · exact absurd h (by simp)
  · exact ⟨rfl, by simpa using h⟩

theorem typed_var {opt : Bool} (hok : E.Ok) (x : Nat) (n : Nat) :
    Gives E σ n (E.Γ x) (σ x) (plain (if opt = true then load3 (E.Γ x) (E.loc x) else gps [.lea (E.loc x) .ax] ++ load3 (E.Γ x) (.off .ax 0))) := by
  intro s hs
  show Runs _ (if opt = true then _ else _) _ _ _
  cases opt with
  | true =>
    rw [if_pos rfl]
    exact load3_run _ _ _ _ n s hs (fea_loc hok x s hs.bp) (hs.mem x)
  | false =>
    rw [if_neg (by decide)]
    refine runs_gp (by rfl) ?_
    have l1 : Leaves E 0 0 s { s with g := s.g.setR .ax (ea E.sym s.g (E.loc x)) } := ⟨rfl, fun _ => rfl, rfl, fun _ _ => rfl, fun _ _ _ => rfl⟩
    have w1 := within_leaves hok (Nat.zero_le _) hs l1 (n' := n) hs.st
    refine runs_imp (load3_run (E.Γ x) (σ x) (.off .ax 0) (E.addr x) n _ w1 ?_ (w1.mem x)) fun s' h => ⟨h.1, leaves_trans l1 h.2⟩
    show ea E.sym s.g (E.loc x) + BitVec.ofInt 64 0 = _
    rw [off0]; exact fea_loc hok x s hs.bp

theorem flo_of_has {t : VTy} {v : Val} {f : FTy} (h : HasTy t v) (ht : t = .flo f) : ∃ x, v = .f x := by
  subst ht; cases v with
  | i z => exact h.elim
  | f x => exact ⟨x, rfl⟩

/-- The code of the whole, and of what is below `!`. -/
theorem gen_gives (opt : Bool) (hok : E.Ok) (hσ : ∀ x, HasTy (E.Γ x) (σ x)) (n : Nat) (hn : n ≤ 5) (e : FE) : e.Ok E.Γ → Fair opt E.Γ σ e →
    (∀ v, Eval E.Γ σ e v → (genF opt E.Γ E.loc E.stk e).st ≤ E.K → Gives E σ n (e.ty E.Γ) v (genF opt E.Γ E.loc E.stk e)) ∧
    (e.truth = true → ∀ flip z, Eval E.Γ σ e (.i z) → Ordered E.Γ σ flip e → (genNot opt E.Γ E.loc E.stk flip e).st ≤ E.K → ∀ s, Within E σ n s →
      Runs E.sym (genNot opt E.Γ E.loc E.stk flip e).code none s fun s' =>
        (s'.g.r .ax = BitVec.ofInt 64 (if flip = true then (if z = 0 then 1 else 0) else z) ∧ s'.st.length ≤ n) ∧
        Leaves E (genNot opt E.Γ E.loc E.stk flip e).st (genNot opt E.Γ E.loc E.stk flip e).fp s s') := by
  induction e with
  | var x =>
    intro _ _
    refine ⟨fun v hv _ => ?_, fun h => absurd h (by simp [FE.truth])⟩
    cases hv
    rw [genF]
    exact typed_var hok x n
  | inum t z =>
    intro h _
    refine ⟨fun v hv _ => ?_, fun h => absurd h (by simp [FE.truth])⟩
    cases hv
    rw [genF]
    exact gives_int h.2
  | num f c =>
    intro h _
    refine ⟨fun v hv _ => ?_, fun h => absurd h (by simp [FE.truth])⟩
    cases hv
    rw [genF]
    exact gives_num (convert_has _ ok80 _) (convert_back f h)
  | neg a ih =>
    rintro ⟨ha, f, hf⟩ ⟨fa, ff⟩
    refine ⟨fun v hv hK => ?_, fun h => absurd h (by simp [FE.truth])⟩
    rw [genF] at hK ⊢
    show Gives E σ n (a.ty E.Γ) _ _
    rw [hf] at hK ⊢
    have hv0 := hv
    cases hv with
    | @neg _ x hx =>
    cases hc : constD opt E.Γ (.neg a) with
    | some c =>
      obtain ⟨ho, hc⟩ := constD_some hc
      exact gives_num (foldD_has _ _ _ hc) ((ff ho).1 f c _ hf hc hv0)
    | none =>
      rw [hc] at hK
      have := (ih ha fa).1 _ hx hK
      rw [hf] at this
      exact gives_then hok hK this (by omega) fun s hs hp => negate_run f x n s hp
  | bin op a b iha ihb =>
    rintro ⟨ha, hb, f, hfa, hfb⟩ ⟨fa, fb, ff⟩
    refine ⟨fun v hv hK => ?_, fun h => absurd h (by simp [FE.truth])⟩
    rw [genF] at hK ⊢
    show Gives E σ n (a.ty E.Γ) _ _
    rw [hfa] at hK ⊢
    have hv0 := hv
    cases hv with
    | @bin _ _ _ f' x y r hx hy hf' hr =>
    have e : f' = f := by rw [hfa] at hf'; cases hf'; rfl
    subst e
    cases hc : constD opt E.Γ (.bin op a b) with
    | some c =>
      obtain ⟨ho, hc⟩ := constD_some hc
      exact gives_num (foldD_has _ _ _ hc) ((ff ho).1 f' c _ hfa hc hv0)
    | none =>
      rw [hc] at hK
      have ga := (iha ha fa).1 _ hx (by revert hK; cases f' <;> dsimp only [fltTy, operands] <;> omega)
      have gb := (ihb hb fb).1 _ hy (by revert hK; cases f' <;> dsimp only [fltTy, operands] <;> omega)
      rw [hfa] at ga
      rw [hfb] at gb
      intro s hs
      exact operands_run hok f' _ _ _ x y n (by omega) _ ga gb hK (fun q s hs hb => arith_run f' op x y r hr n q s hs hb) s hs
  | cmp op a b iha ihb =>
    rintro ⟨ha, hb, f, hfa, hfb⟩ ⟨fa, fb, ff⟩
    have main : ∀ (op' : FCmp) (x y : Fl), Eval E.Γ σ a (.f x) → Eval E.Γ σ b (.f y) →
        (operands E.stk f (genF opt E.Γ E.loc E.stk a) (genF opt E.Γ E.loc E.stk b) (comparison f op')).st ≤ E.K → ∀ s, Within E σ n s →
        Runs E.sym (operands E.stk f (genF opt E.Γ E.loc E.stk a) (genF opt E.Γ E.loc E.stk b) (comparison f op')).code none s fun s' =>
          (s'.g.r .ax = BitVec.ofInt 64 (numOf (op'.Holds x y)) ∧ s'.st.length ≤ n) ∧
          Leaves E (operands E.stk f (genF opt E.Γ E.loc E.stk a) (genF opt E.Γ E.loc E.stk b) (comparison f op')).st
            (operands E.stk f (genF opt E.Γ E.loc E.stk a) (genF opt E.Γ E.loc E.stk b) (comparison f op')).fp s s' := by
      intro op' x y hx hy hK s hs
      have ga := (iha ha fa).1 _ hx (by revert hK; cases f <;> dsimp only [operands] <;> omega)
      have gb := (ihb hb fb).1 _ hy (by revert hK; cases f <;> dsimp only [operands] <;> omega)
      rw [hfa] at ga
      rw [hfb] at gb
      exact compare_run hok f op' _ _ x y n (by omega) ga gb hK s hs
    have inv : ∀ v, Eval E.Γ σ (.cmp op a b) v → ∃ x y, Eval E.Γ σ a (.f x) ∧ Eval E.Γ σ b (.f y) ∧ v = .i (numOf (op.Holds x y)) := by
      intro v hv
      cases hv with
      | @cmpT _ _ _ x y hx hy hh => exact ⟨x, y, hx, hy, by unfold numOf; rw [if_pos hh]⟩
      | @cmpF _ _ _ x y hx hy hh => exact ⟨x, y, hx, hy, by unfold numOf; rw [if_neg hh]⟩
    constructor
    · intro v hv hK
      obtain ⟨x, y, hx, hy, e⟩ := inv v hv
      subst e
      rw [genF] at hK ⊢
      rw [hfa] at hK ⊢
      cases hc : constI opt E.Γ (.cmp op a b) with
      | some c =>
        obtain ⟨ho, hc⟩ := constI_some hc
        have := (ff ho).2 c _ hc hv
        subst this
        refine gives_int ?_
        unfold numOf; split <;> decide
      | none =>
        rw [hc] at hK
        intro s hs
        exact runs_imp (main op x y hx hy hK s hs) fun s' h => ⟨⟨inReg_eq .int h.1.1, h.1.2⟩, h.2⟩
    · intro _ flip z hv hord hK s hs
      obtain ⟨x, y, hx, hy, e⟩ := inv _ hv
      cases e
      rw [genNot] at hK ⊢
      rw [hfa] at hK ⊢
      refine runs_imp (main _ x y hx hy hK s hs) fun s' h => ⟨⟨?_, h.1.2⟩, h.2⟩
      rw [h.1.1]
      cases flip with
      | false => rfl
      | true =>
        rw [if_pos rfl, if_pos rfl, numOf_not _ _ (flip_holds op x y fun h1 h2 => hord rfl h1 h2 x y hx hy)]
  | not a ih =>
    rintro ⟨ha, ht⟩ ⟨fa, ff⟩
    constructor
    · intro v hv hK
      rw [genF] at hK ⊢
      have hv0 := hv
      cases hv with
      | @not _ z hz =>
      cases hc : constI opt E.Γ (.not a) with
      | some c =>
        obtain ⟨ho, hc⟩ := constI_some hc
        have := ((ff ho).1).2 c _ hc hv0
        subst this
        refine gives_int ?_
        split <;> decide
      | none =>
        rw [hc] at hK
        dsimp only at hK ⊢
        cases opt with
        | true =>
          rw [if_pos rfl] at hK ⊢
          intro s hs
          exact runs_imp ((ih ha fa).2 ht true z hz (ff rfl).2 hK s hs) fun s' h => ⟨⟨inReg_eq .int (by rw [h.1.1, if_pos rfl]), h.1.2⟩, h.2⟩
        | false =>
          rw [if_neg Bool.false_ne_true] at hK ⊢
          have g := (ih ha fa).1 _ hz hK
          obtain ⟨t, hat⟩ : ∃ t, a.ty E.Γ = .int t := by
            cases a with
            | cmp => exact ⟨_, rfl⟩
            | not => exact ⟨_, rfl⟩
            | cast t a => cases t with
              | int t => exact ⟨t, rfl⟩
              | flo f => exact absurd ht (by simp [FE.truth])
            | _ => exact absurd ht (by simp [FE.truth])
          rw [hat] at g
          refine gives_then hok hK g (by omega) fun s hs hp => xor1_run z (eval_truth hz ht) n s hp.2 ?_
          exact ((reps_inReg t z _).2 hp.1).low4
    · intro _ flip z hv hord hK s hs
      cases hv with
      | @not _ z hz =>
      rw [genNot] at hK ⊢
      refine runs_imp ((ih ha fa).2 ht (!flip) z hz hord hK s hs) fun s' h => ⟨⟨?_, h.1.2⟩, h.2⟩
      rw [h.1.1]
      rcases eval_truth hz ht with rfl | rfl <;> cases flip <;> rfl
  | cast t a ih =>
    intro hOk ⟨fa, ff, fs⟩
    cases t with
    | flo f =>
      refine ⟨fun v hv hK => ?_, fun h => absurd h (by simp [FE.truth])⟩
      have ha : a.Ok E.Γ := hOk
      rw [genF] at hK ⊢
      show Gives E σ n (.flo f) v _
      cases hc : constD opt E.Γ (.cast (.flo f) a) with
      | some c =>
        obtain ⟨ho, hc⟩ := constD_some hc
        obtain ⟨x, rfl⟩ := flo_of_has (eval_has hσ hv hOk) rfl
        exact gives_num (foldD_has _ _ _ hc) ((ff ho).1 f c _ rfl hc hv)
      | none =>
        rw [hc] at hK
        cases hv with
        | @ofInt _ _ z r hz hr =>
          have g := (ih ha fa).1 _ hz hK
          have hh := eval_has hσ hz ha
          obtain ⟨t, hat⟩ : ∃ t, a.ty E.Γ = .int t := by
            cases h : a.ty E.Γ with
            | int t => exact ⟨t, rfl⟩
            | flo f => rw [h] at hh; exact hh.elim
          rw [hat] at g hh ⊢
          exact gives_then hok hK g (by omega) fun s hs hp => toFloat_run t f z r hh hr n (by omega) s
            ⟨hs.bp, hs.sp, hs.cw, hp.2, hs.mem⟩ hp
        | @ofFlo _ _ x r hx hr =>
          have g := (ih ha fa).1 _ hx hK
          have hh := eval_has hσ hx ha
          obtain ⟨t, hat⟩ : ∃ t, a.ty E.Γ = .flo t := by
            cases h : a.ty E.Γ with
            | int t => rw [h] at hh; exact hh.elim
            | flo f => exact ⟨f, rfl⟩
          rw [hat] at g ⊢
          exact gives_then hok hK g (by omega) fun s hs hp => floFlo_run t f x r hr n _ (by omega) s hs hp
    | int u =>
      obtain ⟨ha, f, hf⟩ := hOk
      have bool : ∀ (op : FCmp) (x : Fl), Eval E.Γ σ a (.f x) → (cmpZero E.stk op f (genF opt E.Γ E.loc E.stk a)).st ≤ E.K → ∀ s, Within E σ n s →
          Runs E.sym (cmpZero E.stk op f (genF opt E.Γ E.loc E.stk a)).code none s fun s' =>
            (s'.g.r .ax = BitVec.ofInt 64 (numOf (op.Holds x (.fin false 0 f.fmt.emin))) ∧ s'.st.length ≤ n) ∧
            Leaves E (cmpZero E.stk op f (genF opt E.Γ E.loc E.stk a)).st (cmpZero E.stk op f (genF opt E.Γ E.loc E.stk a)).fp s s' := by
        intro op x hx hK s hs
        have ga := (ih ha fa).1 _ hx (by revert hK; unfold cmpZero; cases f <;> dsimp only [operands] <;> omega)
        rw [hf] at ga
        exact cmpZero_run hok f op _ x n (by omega) ga hK s hs
      constructor
      · intro v hv hK
        rw [genF] at hK ⊢
        rw [hf] at hK ⊢
        show Gives E σ n (.int u) v _
        cases hc : constI opt E.Γ (.cast (.int u) a) with
        | some c =>
          obtain ⟨ho, hc⟩ := constI_some hc
          have hh := eval_has hσ hv ⟨ha, f, hf⟩
          cases v with
          | f x => exact hh.elim
          | i z =>
            have := (ff ho).2 c _ hc hv
            subst this
            exact gives_int hh
        | none =>
          rw [hc] at hK
          dsimp only at hK ⊢
          cases hv with
          | @toInt _ _ x v hx hb hv hr =>
            rw [if_neg hb] at hK ⊢
            have g := (ih ha fa).1 _ hx hK
            rw [hf] at g
            exact gives_then hok hK g (by omega) fun s hs hp => fromFlo_run f u x v hv hb hr (fs f u x v hf rfl hx hv) n _ hn s hs hp
          | @toBool _ x hx =>
            rw [if_pos rfl] at hK ⊢
            intro s hs
            refine runs_imp (bool .ne x hx hK s hs) fun s' h => ⟨⟨inReg_eq .bool ?_, h.1.2⟩, h.2⟩
            rw [h.1.1]
            congr 1
            unfold numOf
            by_cases h0 : x.val = some 0
            · rw [if_neg (by rw [ne_zero]; simp [h0]), if_pos h0]
            · rw [if_pos ((ne_zero _ _).2 h0), if_neg h0]
      · intro ht flip z hv _ hK s hs
        have hu : u = .bool := by cases u <;> first | rfl | exact absurd ht (by simp [FE.truth])
        subst hu
        rw [genNot] at hK ⊢
        rw [hf] at hK ⊢
        cases hv with
        | @toInt _ _ x v hx hb hv hr => exact absurd rfl hb
        | @toBool _ x hx =>
          refine runs_imp (bool _ x hx hK s hs) fun s' h => ⟨⟨?_, h.1.2⟩, h.2⟩
          rw [h.1.1]
          congr 1
          unfold numOf
          cases flip with
          | true =>
            rw [if_pos rfl, if_pos rfl]
            by_cases h0 : x.val = some 0
            · rw [if_pos ((eq_zero _ _).2 h0), if_pos h0, if_pos rfl]
            · rw [if_neg (by rw [eq_zero]; exact h0), if_neg h0, if_neg (by decide)]
          | false =>
            rw [if_neg Bool.false_ne_true, if_neg Bool.false_ne_true]
            by_cases h0 : x.val = some 0
            · rw [if_neg (by rw [ne_zero]; simp [h0]), if_pos h0]
            · rw [if_pos ((ne_zero _ _).2 h0), if_neg h0]

end
end Slimcc.FP
