import Verif.Lemmas.FpExpr4
import Verif.Spec.FpFold
/-! Folding of floating constants. -/
set_option autoImplicit false
namespace Slimcc.FP
open Slimcc.Spec Slimcc.Spec.CTy Slimcc.Spec.FP Slimcc.X86 Slimcc.Ty Slimcc.Gen

theorem round_opp (F : Fmt) (n : Bool) (m : Nat) (e : ℤ) : round F (!n) m e = neg (round F n m e) := by
  by_cases h : m = 0
  · subst h; rw [round_zero, round_zero]; rfl
  · rw [round_sig _ _ _ _ h, round_sig _ _ _ _ h]
    split <;> rfl

theorem asLong_opp (x : Fl) : asLong (opposite x) = neg (asLong x) := by
  cases x with
  | nan => rfl
  | inf n => rfl
  | fin n m e => exact round_opp _ _ _ _

theorem neg_opp (x : Fl) : neg x = opposite x := by cases x <;> rfl

/-- The long double of a datum of a floating type has its sign and number. -/
theorem asLong_fin (f : FTy) {n : Bool} {m : Nat} {e : ℤ} (h : f.fmt.has (.fin n m e)) :
    ∃ k g, asLong (.fin n m e) = .fin n k g ∧ (Fl.fin n k g).val = (Fl.fin n m e).val ∧ (k = 0 ↔ m = 0) := by
  have hw : ∃ y, f80.has y ∧ y.val = (Fl.fin n m e).val := by
    obtain ⟨v, hv⟩ : ∃ v, (Fl.fin n m e).val = some v := ⟨_, rfl⟩
    cases f with
    | float => obtain ⟨y, a, b⟩ := Props.wider_has f32 f80 ok80 (by decide) (by decide) (by decide) h hv; exact ⟨y, a, by rw [b, hv]⟩
    | double => obtain ⟨y, a, b⟩ := Props.wider_has f64 f80 ok80 (by decide) (by decide) (by decide) h hv; exact ⟨y, a, by rw [b, hv]⟩
    | ldouble => exact ⟨_, h, rfl⟩
  obtain ⟨y, hy, hyv⟩ := hw
  obtain ⟨v, hv⟩ : ∃ v, (Fl.fin n m e).val = some v := ⟨_, rfl⟩
  have h1 := convert_rounded f80 ok80 hv
  have h2 : (convert f80 (.fin n m e)).val = some v := Rounded.exact ok80 h1 hy (by rw [hyv, hv])
  have h3 : convert f80 (.fin n m e) = .inf n ∨ ∃ k g, convert f80 (.fin n m e) = .fin n k g := round_neg f80 n m e
  rcases h3 with h3 | ⟨k, g, h3⟩
  · rw [h3] at h2; simp [Fl.val] at h2
  · rw [h3] at h2
    exact ⟨k, g, h3, by rw [h2, hv], by rw [← val_zero h2, ← val_zero hv]⟩

theorem asLong_place (f : FTy) {x : Fl} (h : f.fmt.has x) : (asLong x).place = x.place := by
  cases x with
  | nan => rfl
  | inf n => rfl
  | fin n m e =>
    obtain ⟨k, g, h1, h2, _⟩ := asLong_fin f h
    rw [h1]
    unfold Fl.place
    dsimp only
    rw [h2]

theorem asLong_val (f : FTy) {x : Fl} (h : f.fmt.has x) : (asLong x).val = x.val := by
  cases x with
  | nan => rfl
  | inf n => rfl
  | fin n m e =>
    obtain ⟨k, g, h1, h2, _⟩ := asLong_fin f h
    rw [h1, h2]

theorem sum_asLong (f : FTy) {x y q : Fl} (hx : f.fmt.has x) (hy : f.fmt.has y) (h : Sum f80 (asLong x) (asLong y) q) : Sum f80 x y q := by
  cases x with
  | nan => cases y <;> exact h
  | inf a =>
    cases y with
    | nan => exact h
    | inf b => exact h
    | fin b k g => obtain ⟨k', g', h1, h2, _⟩ := asLong_fin f hy; rw [h1] at h; exact h
  | fin a m e =>
    obtain ⟨m', e', h1, h2, _⟩ := asLong_fin f hx
    rw [h1] at h
    cases y with
    | nan => exact h
    | inf b => exact h
    | fin b k g =>
      obtain ⟨k', g', h3, h4, _⟩ := asLong_fin f hy
      rw [h3] at h
      obtain ⟨v, w, hv, hw, hh⟩ := h
      exact ⟨v, w, by rw [← h2, hv], by rw [← h4, hw], hh⟩

theorem product_asLong (f : FTy) {x y q : Fl} (hx : f.fmt.has x) (hy : f.fmt.has y) (h : Product f80 (asLong x) (asLong y) q) : Product f80 x y q := by
  cases x with
  | nan => cases y <;> exact h
  | inf a =>
    cases y with
    | nan => exact h
    | inf b => exact h
    | fin b k g =>
      obtain ⟨k', g', h1, h2, h3⟩ := asLong_fin f hy
      rw [h1] at h
      have h' : q = if k' = 0 then .nan else .inf (a ^^ b) := h
      show q = if k = 0 then .nan else .inf (a ^^ b)
      simp only [h3] at h'; exact h'
  | fin a m e =>
    obtain ⟨m', e', h1, h2, h5⟩ := asLong_fin f hx
    rw [h1] at h
    cases y with
    | nan => exact h
    | inf b =>
      have h' : q = if m' = 0 then .nan else .inf (a ^^ b) := h
      show q = if m = 0 then .nan else .inf (a ^^ b)
      simp only [h5] at h'; exact h'
    | fin b k g =>
      obtain ⟨k', g', h3, h4, _⟩ := asLong_fin f hy
      rw [h3] at h
      obtain ⟨v, w, hv, hw, hh⟩ := h
      exact ⟨v, w, by rw [← h2, hv], by rw [← h4, hw], hh⟩

theorem quotient_asLong (f : FTy) {x y q : Fl} (hx : f.fmt.has x) (hy : f.fmt.has y) (h : Spec.FP.Quotient f80 (asLong x) (asLong y) q) :
    Spec.FP.Quotient f80 x y q := by
  cases x with
  | nan => cases y <;> exact h
  | inf a =>
    cases y with
    | nan => exact h
    | inf b => exact h
    | fin b k g => obtain ⟨k', g', h1, h2, _⟩ := asLong_fin f hy; rw [h1] at h; exact h
  | fin a m e =>
    obtain ⟨m', e', h1, h2, h5⟩ := asLong_fin f hx
    rw [h1] at h
    cases y with
    | nan => exact h
    | inf b => exact h
    | fin b k g =>
      obtain ⟨k', g', h3, h4, h6⟩ := asLong_fin f hy
      rw [h3] at h
      unfold Spec.FP.Quotient at h ⊢
      dsimp only at h ⊢
      by_cases hk : k = 0
      · rw [if_pos (h6.2 hk)] at h
        rw [if_pos hk]
        simp only [h5] at h
        exact h
      · rw [if_neg (fun h => hk (h6.1 h))] at h
        rw [if_neg hk]
        obtain ⟨v, w, hv, hw, hh⟩ := h
        exact ⟨v, w, by rw [← h2, hv], by rw [← h4, hw], hh⟩

theorem opp_has {F : Fmt} {x : Fl} (h : F.has x) : F.has (opposite x) := by cases x <;> exact h

theorem host_result (f : FTy) (op : FBin) {x y : Fl} (hx : f.fmt.has x) (hy : f.fmt.has y) : op.Result f80 x y (hostOp op (asLong x) (asLong y)) := by
  cases op with
  | add => exact sum_asLong f hx hy (add_sum _ ok80 _ _)
  | sub =>
    refine sum_asLong f hx (opp_has hy) ?_
    rw [asLong_opp, neg_opp]
    exact sub_sum _ ok80 _ _
  | mul => exact product_asLong f hx hy (mul_product _ ok80 _ _)
  | div => exact quotient_asLong f hx hy (div_quotient _ ok80 _ _)

/-- Conversion of the long double of a datum. -/
theorem convert_asLong (f : FTy) {F : Fmt} (hF : Fmt.Ok F) {x r : Fl} (hx : f.fmt.has x) (h : Converted F x r) : convert F (asLong x) = r := by
  cases x with
  | nan => rw [h.1 rfl]; rfl
  | inf n => rw [h.2.1 n rfl]; rfl
  | fin n m e =>
    obtain ⟨k, g, h1, h2, _⟩ := asLong_fin f hx
    rw [h1]
    refine converted_unique hF (Props.convertedTo F hF _) ⟨fun h => by simp at h, fun _ h => by simp at h, fun n' m' e' he => ?_, fun w hw => ?_⟩
    · cases he; exact h.2.2.1 n m e rfl
    · exact h.2.2.2 w (by rw [← h2, hw])

theorem asLong_self {c : Fl} (h : f80.has c) : asLong c = c :=
  converted_unique ok80 (Props.convertedTo f80 ok80 c) (Props.convertedTo_self f80 c h)

theorem host_cmp (op : FCmp) (x y : Fl) : hostCmp op x y = true ↔ op.Holds x y := by
  unfold hostCmp FCmp.Holds
  rcases compare_place x y with ⟨h, h1⟩ | ⟨a, b, ha, hb, h⟩
  · rw [h]
    have : (op == FCmp.ne) = true ↔ op = .ne := by simp
    rw [this]
    rcases h1 with h1 | h1
    · rw [h1]
    · rw [h1]; cases x.place <;> exact Iff.rfl
  · rw [h, ha, hb]
    dsimp only
    cases op
    · simp
    · simp
    · simp
    · simp [le_iff_lt_or_eq]
    · simp only [Bool.not_eq_true', Bool.or_eq_false_iff, decide_eq_false_iff_not, not_lt]
      exact ⟨fun h => lt_of_le_of_ne h.1 (fun e => h.2 e.symm), fun h => ⟨h.le, h.ne'⟩⟩
    · simp

theorem fold_closed (Γ : Nat → VTy) (e : FE) : (∀ c, foldD Γ e = some c → e.closed = true) ∧ ∀ z, foldI Γ e = some z → e.closed = true := by
  induction e with
  | var x => exact ⟨fun c h => by simp [foldD] at h, fun c h => by simp [foldI] at h⟩
  | inum t z => exact ⟨fun c h => rfl, fun c h => rfl⟩
  | num f d => exact ⟨fun c h => rfl, fun c h => rfl⟩
  | neg e ih =>
    refine ⟨fun c h => ?_, fun c h => by simp [foldI] at h⟩
    rw [foldD, Option.map_eq_some_iff] at h
    obtain ⟨d, h1, _⟩ := h
    exact ih.1 d h1
  | bin op a b iha ihb =>
    refine ⟨fun c h => ?_, fun c h => by simp [foldI] at h⟩
    rw [foldD] at h
    split at h
    · rename_i h1 h2 _
      show (a.closed && b.closed) = true
      rw [iha.1 _ h1, ihb.1 _ h2]; rfl
    · exact absurd h (by simp)
  | cmp op a b iha ihb =>
    refine ⟨fun c h => by simp [foldD] at h, fun c h => ?_⟩
    rw [foldI] at h
    split at h
    · rename_i h1 h2
      show (a.closed && b.closed) = true
      rw [iha.1 _ h1, ihb.1 _ h2]; rfl
    · exact absurd h (by simp)
  | not e ih =>
    refine ⟨fun c h => by simp [foldD] at h, fun c h => ?_⟩
    rw [foldI, Option.map_eq_some_iff] at h
    obtain ⟨d, h1, _⟩ := h
    exact ih.2 d h1
  | cast t e ih =>
    cases t with
    | int t =>
      refine ⟨fun c h => by simp [foldD] at h, fun c h => ?_⟩
      rw [foldI, Option.map_eq_some_iff] at h
      obtain ⟨d, h1, _⟩ := h
      exact ih.1 d h1
    | flo f =>
      refine ⟨fun c h => ?_, fun c h => by simp [foldI] at h⟩
      cases ht : e.ty Γ with
      | flo g =>
        simp only [foldD, ht, Option.map_eq_some_iff] at h
        obtain ⟨d, h1, _⟩ := h
        exact ih.1 d h1
      | int t =>
        simp only [foldD, ht, Option.map_eq_some_iff] at h
        obtain ⟨d, h1, _⟩ := h
        exact ih.2 d h1

/-- An integer that a floating type has, as a long double. -/
theorem fromInt_asLong (f : FTy) {z : ℤ} {r : Fl} (h : FromInt f.fmt z r) (hr : r.val = some (z : ℚ)) : ofInt f80 z = asLong r := by
  have hx : f.fmt.has r := rounded_has h.1
  by_cases hz : z = 0
  · rw [h.2 hz, hz]
    unfold asLong convert
    dsimp only
    rw [round_zero]; rfl
  · have h1 := ofInt_rounded f80 ok80 z
    refine rounded_unique ok80 (by exact_mod_cast hz) h1 ?_
    exact convert_rounded f80 ok80 hr

/-- What the compiler computes is the value, as a long double. -/
theorem fold_same {Γ : Nat → VTy} {σ : Nat → Val} (hσ : ∀ x, HasTy (Γ x) (σ x)) (e : FE) : e.Ok Γ → Kept Γ σ e →
    (∀ c v, foldD Γ e = some c → Eval Γ σ e (.f v) → c = asLong v) ∧ ∀ z v, foldI Γ e = some z → Eval Γ σ e (.i v) → z = v := by
  have inh : ∀ {e : FE} {f : FTy} {x : Fl}, e.Ok Γ → e.ty Γ = .flo f → Eval Γ σ e (.f x) → f.fmt.has x := by
    intro e f x h ht hv
    have := eval_has hσ hv h
    rw [ht] at this; exact this
  induction e with
  | var x => intro _ _; exact ⟨fun c v h => by simp [foldD] at h, fun c v h => by simp [foldI] at h⟩
  | inum t z =>
    intro _ _
    refine ⟨fun c v h => by simp [foldD] at h, fun c v h hv => ?_⟩
    rw [foldI, Option.some.injEq] at h
    cases hv; exact h.symm
  | num f d =>
    intro _ _
    refine ⟨fun c v h hv => ?_, fun c v h => by simp [foldI] at h⟩
    rw [foldD, Option.some.injEq] at h
    cases hv; exact h.symm
  | neg e ih =>
    rintro ⟨h, f, hf⟩ hk
    refine ⟨fun c v hc hv => ?_, fun c v h => by simp [foldI] at h⟩
    rw [foldD, Option.map_eq_some_iff] at hc
    obtain ⟨d, h1, h2⟩ := hc
    cases hv with
    | neg hx => rw [← h2, (ih h hk).1 d _ h1 hx, asLong_opp]
  | bin op a b iha ihb =>
    rintro ⟨ha, hb, f, hfa, hfb⟩ ⟨ka, kb, kk⟩
    refine ⟨fun c v hc hv => ?_, fun c v h => by simp [foldI] at h⟩
    rw [foldD, hfa] at hc
    cases hv with
    | @bin _ _ _ f' x y r hx hy hf' hr =>
    have e : f' = f := by rw [hfa] at hf'; cases hf'; rfl
    subst e
    cases h1 : foldD Γ a with
    | none => rw [h1] at hc; simp at hc
    | some p =>
      cases h2 : foldD Γ b with
      | none => rw [h1, h2] at hc; simp at hc
      | some q =>
        rw [h1, h2] at hc
        have hc' : fpCast f' (hostOp op p q) = c := by simpa using hc
        rw [← hc', (iha ha ka).1 p _ h1 hx, (ihb hb kb).1 q _ h2 hy]
        have hq := host_result f' op (inh ha hfa hx) (inh hb hfb hy)
        unfold fpCast
        show asLong (convert f'.fmt _) = asLong v
        congr 1
        by_cases hl : f' = .ldouble
        · subst hl
          rw [result_unique hr hq]
          exact asLong_self (result_has (f := .ldouble) hq)
        · have hconv := kk ((fold_closed Γ a).1 _ h1) ((fold_closed Γ b).1 _ h2) f' x y v _ hfa hl hx hy hr hq
          exact converted_unique (fmt_ok f') (Props.convertedTo f'.fmt (fmt_ok f') _) hconv
  | cmp op a b iha ihb =>
    rintro ⟨ha, hb, f, hfa, hfb⟩ ⟨ka, kb⟩
    refine ⟨fun c v h => by simp [foldD] at h, fun c v hc hv => ?_⟩
    rw [foldI] at hc
    cases h1 : foldD Γ a with
    | none => rw [h1] at hc; simp at hc
    | some p =>
      cases h2 : foldD Γ b with
      | none => rw [h1, h2] at hc; simp at hc
      | some q =>
        rw [h1, h2] at hc
        have hc' : (if hostCmp op p q = true then 1 else 0) = c := by simpa using hc
        rw [← hc']
        have key : ∀ x y, Eval Γ σ a (.f x) → Eval Γ σ b (.f y) → (hostCmp op p q = true ↔ op.Holds x y) := by
          intro x y hx hy
          rw [host_cmp, (iha ha ka).1 p _ h1 hx, (ihb hb kb).1 q _ h2 hy]
          unfold FCmp.Holds
          rw [asLong_place f (inh ha hfa hx), asLong_place f (inh hb hfb hy)]
        cases hv with
        | cmpT hx hy hh => rw [if_pos ((key _ _ hx hy).2 hh)]
        | cmpF hx hy hh => rw [if_neg (fun h => hh ((key _ _ hx hy).1 h))]
  | not e ih =>
    rintro ⟨h, ht⟩ hk
    refine ⟨fun c v h => by simp [foldD] at h, fun c v hc hv => ?_⟩
    rw [foldI, Option.map_eq_some_iff] at hc
    obtain ⟨d, h1, h2⟩ := hc
    cases hv with
    | not hz => rw [← h2, (ih h hk).2 d _ h1 hz]
  | cast t e ih =>
    intro hOk ⟨hk, kk⟩
    cases t with
    | flo f =>
      have h : e.Ok Γ := hOk
      refine ⟨fun c v hc hv => ?_, fun c v h => by simp [foldI] at h⟩
      cases hv with
      | @ofInt _ _ z r hz hr =>
        have hh := eval_has hσ hz h
        obtain ⟨t, hat⟩ : ∃ t, e.ty Γ = .int t := by
          cases h : e.ty Γ with
          | int t => exact ⟨t, rfl⟩
          | flo f => rw [h] at hh; exact hh.elim
        simp only [foldD, hat, Option.map_eq_some_iff] at hc
        obtain ⟨d, h1, h2⟩ := hc
        rw [← h2, (ih h hk).2 d z h1 hz]
        exact fromInt_asLong f hr (kk ((fold_closed Γ e).2 _ h1) f z v rfl hz hr)
      | @ofFlo _ _ x r hx hr =>
        have hh := eval_has hσ hx h
        obtain ⟨g, hat⟩ : ∃ t, e.ty Γ = .flo t := by
          cases h : e.ty Γ with
          | int t => rw [h] at hh; exact hh.elim
          | flo f => exact ⟨f, rfl⟩
        simp only [foldD, hat, Option.map_eq_some_iff] at hc
        obtain ⟨d, h1, h2⟩ := hc
        rw [← h2, (ih h hk).1 d x h1 hx]
        show asLong (convert f.fmt _) = _
        rw [convert_asLong g (fmt_ok f) (inh h hat hx) hr]
    | int u =>
      obtain ⟨h, f, hf⟩ := hOk
      refine ⟨fun c v h => by simp [foldD] at h, fun c v hc hv => ?_⟩
      rw [foldI, Option.map_eq_some_iff] at hc
      obtain ⟨d, h1, h2⟩ := hc
      cases hv with
      | @toInt _ _ x v hx hb hv hr =>
        rw [← h2, (ih h hk).1 d x h1 hx]
        have h3 : roundInt 3 (asLong x) = some (truncated v) := roundInt_trunc (by rw [asLong_val f (inh h hf hx), hv])
        unfold hostInt
        cases u <;> first | exact absurd rfl hb | (dsimp only; rw [h3]; exact if_pos hr)
      | @toBool _ x hx =>
        rw [← h2, (ih h hk).1 d x h1 hx]
        unfold hostInt
        dsimp only
        have key : compare (asLong x) (.fin false 0 f80.emin) = some (false, true) ↔ x.val = some 0 := by
          rw [← asLong_val f (inh h hf hx), ← place_val]
          rcases compare_place (asLong x) (.fin false 0 f80.emin) with ⟨h, h1 | h1⟩ | ⟨a, b, ha, hb, h⟩
          · rw [h, h1]; simp
          · rw [zero_place] at h1; simp at h1
          · rw [h, ha]
            rw [zero_place, Option.some.injEq] at hb
            rw [hb]
            simp only [Option.some.injEq, Prod.mk.injEq, decide_eq_false_iff_not, decide_eq_true_eq]
            exact ⟨fun h => h.2, fun h => ⟨by rw [h]; exact lt_irrefl _, h⟩⟩
        by_cases h0 : x.val = some 0
        · rw [if_pos (key.2 h0), if_pos h0]
        · rw [if_neg (fun h => h0 (key.1 h)), if_neg h0]

theorem fold_ok {Γ : Nat → VTy} {σ : Nat → Val} (hσ : ∀ x, HasTy (Γ x) (σ x)) (e : FE) (h : e.Ok Γ) (hk : Kept Γ σ e) : FoldOk Γ σ e := by
  refine ⟨fun f c v ht hc hv => ?_, fun z v hc hv => (fold_same hσ e h hk).2 z v hc hv⟩
  rw [(fold_same hσ e h hk).1 c v hc hv]
  have := eval_has hσ hv h
  rw [ht] at this
  exact convert_back f this

end Slimcc.FP
