import Verif.Lemmas.GenOpt
/-! The shortcuts of the code generator: loads, truth values, the dispatch. -/
set_option autoImplicit false
namespace Slimcc
open Slimcc.Spec Slimcc.Spec.CTy Slimcc.Ty Slimcc.X86 Slimcc.Gen

section
variable {E : Env} {P : List Line} {opt : Bool}

theorem conv_wider (fr to : ITy) (v : Int) (hf : fr.wf = true) (ht : to.wf = true) (hr : InRange (cty fr) v) (h : fr.size < to.size)
    (hu : fr.uns = true ∨ to.uns = false) : conv (cty to) v = v := by
  have key : ∀ fr ∈ allTys, ∀ to ∈ allTys, fr.size < to.size → (fr.uns = true ∨ to.uns = false) →
      (cty to).minVal ≤ (cty fr).minVal ∧ (cty fr).maxVal ≤ (cty to).maxVal := by decide +kernel
  have := key fr (mem_allTys fr hf) to (mem_allTys to ht) h hu
  apply conv_id
  unfold InRange at *
  omega

theorem loadOpt_ok (hok : E.Ok) (n : Node) (g : G) (hg : loadOpt E.loc n = some g) : ExprOk E P opt g n := by
  intro nt acc σ s v σ' c hp h hK
  unfold loadOpt at hg
  split at hg
  · rename_i t e
    simp only [neval, bind_ok_iff, Res.ok.injEq, Prod.mk.injEq] at h
    obtain ⟨⟨w, σ1⟩, h1, rfl, rfl⟩ := h
    split at hg
    · rename_i x hx
      obtain ⟨rfl, hn, hin, hsz, hd⟩ := memop_val hx hp.wf.2 h1
      have hpe : Pre E opt nt acc e σ1 s := hp.left hp.wf.2 hp.stat fun h => h
      have hr := (hpe.range h1).1
      have hwe := wf_ty _ hp.wf.2
      have hdx := stat_dom e x hp.stat hin
      have hm := ea_loc hok hdx s hp.bp
      have fin : ∀ i, g = inss [i] → Calc E [i] s (fun s' => Reps t (conv (cty t) w) (s'.r .ax)) →
          Does E P (g c).1 s fun s' => Rel E σ1 s'.m ∧ Holds (.cast t e) (conv (cty t) w) (s'.r .ax) := by
        rintro i rfl hc
        exact does_calc hc (fun s' hm q => ⟨by rw [hm]; exact hp.rel, q, fun h => by cases h⟩) c
      have hle := size_le e.ty
      split at hg
      · rename_i hgt
        have htb : t.kind ≠ .bool := by
          intro hb
          have : t.size = 1 := by unfold ITy.size; rw [hb]; rfl
          omega
        have hbool : cty t ≠ .bool := fun e => htb ((cty_bool t).1 e)
        split at hg
        · rename_i hc
          simp only [Bool.and_eq_true, Bool.not_eq_true', decide_eq_true_eq] at hc
          injection hg with hg
          refine fin _ hg.symm ((load64_calc (σ := σ1) hp.rel hdx e.ty w _ .ax hwe hr (by omega) hd hm scratch_ax hc.1).imp fun s' _ q => ?_)
          refine Reps.big (by omega) ?_
          rw [q.1, hc.2]
          exact (Low.of_eq 8 w (by omega)).conv _ hbool (by rw [cty_width t htb]; omega)
        · rename_i hc
          split at hg
          · rename_i hc2
            injection hg with hg
            simp only [Bool.and_eq_true, Bool.not_eq_true', decide_eq_true_eq, not_and] at hc hc2
            by_cases h8 : t.size = 8
            · have hu : e.ty.uns = true := by
                cases hu : e.ty.uns
                · exact absurd h8 (hc hu)
                · rfl
              refine fin _ hg.symm ((loadx_calc (σ := σ1) hp.rel hdx e.ty w _ .ax hwe hr (by omega) hd hm scratch_ax hu (by have := size_cases e.ty; omega)).imp fun s' _ q => ?_)
              rw [conv_wider e.ty t w hwe hp.wf.1 hr hgt (Or.inl hu)]
              exact Reps.of_eq _ _ q.1
            · refine fin _ hg.symm ((load_calc (σ := σ1) hp.rel hdx e.ty w _ .ax hwe hr (by omega) hd hm scratch_ax).imp fun s' _ q => ?_)
              refine ⟨?_, fun h => absurd h htb⟩
              rw [rop_small t h8]
              by_cases h4 : t.size = 4
              · exact q.1.low4.conv _ hbool (by rw [cty_width t htb]; omega)
              · have h2 : t.size = 2 := by have := size_cases t; omega
                have : e.ty.uns = true ∨ t.uns = false := by
                  rw [Bool.eq_false_iff] at hc2
                  simp only [h2, Bool.and_eq_true, decide_true, true_and, Bool.not_eq_true', ne_eq, not_and] at hc2
                  cases hu : t.uns
                  · exact Or.inr rfl
                  · left
                    cases he : e.ty.uns
                    · exact absurd he (hc2 hu)
                    · rfl
                rw [conv_wider e.ty t w hwe hp.wf.1 hr hgt this]
                exact q.1.low4
          · cases hg
      · split at hg
        · rename_i hle' htb
          injection hg with hg
          have hbool : cty t ≠ .bool := fun e => htb ((cty_bool t).1 e)
          refine fin _ hg.symm ((load_calc (σ := σ1) hp.rel hdx t (conv (cty t) w) _ .ax hp.wf.1 (conv_range _ _) (by omega) ?_ hm scratch_ax).imp fun s' _ q => q.1)
          have d1 := dvd_low (by omega : t.size ≤ e.ty.size) hd
          have d2 := conv_dvd (cty t) w t.size hbool (by rw [cty_width t htb]; exact Nat.le_refl _)
          exact Int.dvd_trans (Int.dvd_add d1 d2) ⟨1, by omega⟩
        · cases hg
    · cases hg
  · cases hg

theorem constLoad_ok (hs : HostShift) (n : Node) (w : Word) (he : evalNode hs n = .ok w) : ExprOk E P opt (inss (loadVal n.ty w)) n := by
  intro nt acc σ s v σ' c hp h hK
  obtain ⟨rfl, rfl⟩ := const_val hs hp.accr hp.wf hp.sok he h
  have hr := (hp.range h).1
  exact does_calc (loadVal_calc n.ty v s (wf_ty _ hp.wf) hr)
    (fun s' hm q => ⟨by rw [hm]; exact hp.rel, q.1, fun ht => q.2 (boolish_val (Or.inr ht) hr h)⟩) c

theorem memLoad_ok (hok : E.Ok) (n : Node) (x : Nat) (hx : memop n = some x) : ExprOk E P opt (inss [loadExt n.ty (E.loc x) .ax]) n := by
  intro nt acc σ s v σ' c hp h hK
  obtain ⟨rfl, hn, hin, hsz, hd⟩ := memop_val hx hp.wf h
  have hdx := stat_dom n x hp.stat hin
  have ht := (memop_spec (acc := acc) n x hx hp.wf).2.2.2.2.2.1
  exact does_calc (load_calc hp.rel hdx n.ty v _ .ax (wf_ty _ hp.wf) (hp.range h).1 (by omega) hd (ea_loc hok hdx s hp.bp) scratch_ax)
    (fun s' hm q => ⟨by rw [hm]; exact hp.rel, q.1, fun h => by rw [ht] at h; cases h⟩) c

theorem assignOpt_ok (hok : E.Ok) (g : G) (t : ITy) (x : Nat) (r : Node) (gr : ExprOk E P opt g r) :
    ExprOk E P opt (g ;; inss [.mov t.size (.reg .ax) (.mem (E.loc x))]) (.assign t x r) := by
  intro nt acc σ s v σ' c hp h hK
  simp only [neval, bind_ok_iff, Res.ok.injEq, Prod.mk.injEq] at h
  obtain ⟨⟨a, σ1⟩, h1, rfl, rfl⟩ := h
  obtain ⟨ht, hrt, hwr⟩ := hp.wf
  obtain ⟨hx, hsr, hnr⟩ := hp.stat
  have hpr : Pre E opt nt acc r σ s := hp.left hwr hsr fun _ => hnr
  refine does_seq _ _ c s _ _ (gr nt acc σ s a σ1 c hpr h1 (seq_st_le hK).1) fun s1 e1 q1 => ?_
  have hq := q1.2.1
  rw [hrt] at hq
  obtain ⟨s2, x2, e2, q2, r2⟩ := store_run hok x a (E.loc x) s1 hx q1.1 (ea_loc hok hx s1 (e1.bp.trans hp.bp)) (by rw [← ht]; exact hq.low)
  refine does_inss _ s1 s2 _ (by simp only [execs, ht, x2, Option.bind_some]) e2 ⟨q2, ?_, fun h => by cases h⟩ _
  rw [r2]; exact hq

theorem cmp_flip (op : CmpOp) (f : Bool) (a b : Int) : cmpVal (flipCmp op f) a b = if f then 1 - cmpVal op a b else cmpVal op a b := by
  cases f
  · simp [flipCmp]
  · have := Int.lt_trichotomy a b
    cases op <;> simp only [flipCmp, cmpVal, truth, Bool.not_true, Bool.false_eq_true, if_false, if_true] <;> repeat' split
    all_goals omega

/-- Operators with a constant or a variable as right operand. -/
theorem gpOpt_ok (hok : E.Ok) (hs : HostShift) (rec : Node → G) (n : Node) (g : G) (hg : gpOpt hs E.loc rec n = some g) (ho : opt = true)
    (hE : ∀ m, weight m < weight n → ExprOk E P opt (rec m) m) : ExprOk E P opt g n := by
  have hdm : ∀ (isMod : Bool) (t : ITy) (a b : Node) (w : Word) (l : List Ins), n = .bin (if isMod then .mod else .div) t a b → evalNode hs b = .ok w →
      divmodOpt isMod t w = some l → g = (rec a ;; inss l) → ExprOk E P opt g n := by
    rintro isMod t a b w l rfl he hl rfl nt acc σ s v σ' c hp h hK
    simp only [neval, bind_ok_iff, Res.ok.injEq, Prod.mk.injEq] at h
    obtain ⟨⟨va, σ1⟩, h1, ⟨vb, σ2⟩, h2, r, h3, rfl, rfl⟩ := h
    obtain ⟨hta, htb, h4, hwa, hwb⟩ := hp.wf
    have hpa : Pre E opt nt acc a σ s := hp.left hwa hp.stat.1 fun h => h.1
    have ra := hpa.range h1
    have rb := (neval_range hp.accr b σ1 hwb ra.2 vb σ2 h2).1
    obtain ⟨rfl, rfl⟩ := const_val hs hp.accr hwb ra.2 he h2
    have hwt := wf_ty _ hwa
    rw [hta] at ra hwt
    rw [htb] at rb
    refine does_seq _ _ c s _ _ (hE a (by simp only [weight]; omega) nt acc σ s va σ2 c hpa h1 (seq_st_le hK).1) fun s1 e1 q1 => ?_
    have hlow := q1.2.1.low
    rw [hta] at hlow
    refine does_calc (divmod_calc isMod t va vb l s1 hwt h4 ra.1 rb hlow hl) (fun s' hm q => ⟨by rw [hm]; exact q1.1, Reps.big h4 ?_, fun h => by cases h⟩) _
    have : r = if isMod then va.tmod vb else va.tdiv vb := by
      cases isMod <;> simp only [if_true, if_false, Bool.false_eq_true, arith] at h3 ⊢ <;> (split at h3; · cases h3) <;> split at h3 <;> first | (injection h3 with h3; exact h3.symm) | cases h3
    rw [this]; exact q
  have hbin : ∀ k t a b, n = .bin k t a b → arithOpt hs E.loc rec t.size k a b = some g → ExprOk E P opt g n := by
    rintro k t a b rfl hg nt acc σ s v σ' c hp h hK
    have h4 := hp.wf.2.2.1
    have hsz : t.size = 4 ∨ t.size = 8 := by have := size_cases t; omega
    refine (arithOpt_ok hok hs rec t.size k a b g hg hsz (Nat.le_refl _) ho hp h (hE a (by simp only [weight]; omega)) (hE b (by simp only [weight]; omega)) c hK).imp
      fun s' _ q => ⟨q.1, Reps.big h4 q.2, fun h => by cases h⟩
  unfold gpOpt at hg
  split at hg
  · rename_i k t a b
    intro nt acc σ s v σ' c hp h hK
    simp only [neval, bind_ok_iff, Res.ok.injEq, Prod.mk.injEq] at h
    obtain ⟨⟨va, σ1⟩, h1, ⟨vb, σ2⟩, h2, r, h3, rfl, rfl⟩ := h
    obtain ⟨hta, h4, hwa, hwb⟩ := hp.wf
    have hpa : Pre E opt nt acc a σ s := hp.left hwa hp.stat.1 fun h => h.1
    have ra := hpa.range h1
    have rb := neval_range hp.accr b σ1 hwb ra.2 vb σ2 h2
    have hwt := wf_ty _ hwa
    rw [hta] at ra hwt
    have hsz : t.size = 4 ∨ t.size = 8 := by have := size_cases t; omega
    have hEa := hE a (by simp only [weight]; omega) nt acc σ s va σ1 c hpa h1
    have hsh : ∀ x, Low t.size va x → _ := fun x hx => sh_low k t b.ty va vb r x hwt h4 ra.1 (wf_ty _ hwb) rb.1 h3 hx
    split at hg
    · rename_i w he
      injection hg with hg
      subst hg
      obtain ⟨rfl, rfl⟩ := const_val hs hp.accr hwb ra.2 he h2
      refine does_seq _ _ c s _ _ (hEa (seq_st_le hK).1) fun s1 e1 q1 => ?_
      have hlow := q1.2.1.low
      rw [hta] at hlow
      obtain ⟨g1, g2, g3⟩ := hsh _ hlow
      exact does_calc (immShift_calc k t.size hsz vb g1 (by omega) s1) (fun s' hm q => ⟨by rw [hm]; exact q1.1, Reps.big h4 (g3.same q), fun h => by cases h⟩) _
    · split at hg
      · rename_i x hx
        injection hg with hg
        subst hg
        obtain ⟨rfl, hn, hin, hbs, hd⟩ := memop_val hx hwb h2
        have hdx := stat_dom b x hp.stat.2.1 hin
        refine does_seq _ _ c s _ _ (hEa (seq_st_le hK).1) fun s1 e1 q1 => ?_
        have hlow := q1.2.1.low
        rw [hta] at hlow
        obtain ⟨g1, g2, g3⟩ := hsh _ hlow
        have hb1 := (size_le b.ty).2
        refine does_calc (calc_cons (mov_cl_calc (.mem (E.loc x)) vb s1 g1 (by omega) ?_) fun s2 _ _ q2 => (shft_cl_calc k t.size hsz vb.toNat (by omega) s2 q2.1).imp fun s' _ q => by rw [q2.2] at q; exact q)
          (fun s' hm q => ⟨by rw [hm]; exact q1.1, Reps.big h4 (g3.same q), fun h => by cases h⟩) _
        exact low_var hok hdx (e1.bp.trans hp.bp) q1.1 1 (by omega) (dvd_low (by omega) hd)
      · cases hg
  · rename_i t a b
    split at hg
    · rename_i w he
      simp only [Option.map_eq_some_iff] at hg
      obtain ⟨l, hl, rfl⟩ := hg
      exact hdm false t a b w l rfl he hl rfl
    · cases hg
  · rename_i t a b
    split at hg
    · rename_i w he
      simp only [Option.map_eq_some_iff] at hg
      obtain ⟨l, hl, rfl⟩ := hg
      exact hdm true t a b w l rfl he hl rfl
    · cases hg
  · exact hbin _ _ _ _ rfl hg
  · rename_i op a b
    split at hg
    · rename_i g' op' hc
      injection hg with hg
      subst hg
      intro nt acc σ s v σ' c hp h hK
      simp only [neval, bind_ok_iff, Res.ok.injEq, Prod.mk.injEq] at h
      obtain ⟨⟨va, σ1⟩, h1, ⟨vb, σ2⟩, h2, rfl, rfl⟩ := h
      refine does_seq _ _ c s _ _ (cmpOpt_ok hok hs rec op op' a b g' hc ho hp h1 h2 (hE a (by simp only [weight]; omega)) (hE b (by simp only [weight]; omega)) c (seq_st_le hK).1) fun s1 e1 q1 => ?_
      obtain ⟨hrel, p, q, ⟨x, y, hx, hy, hf⟩, hrp, hrq, hv⟩ := q1
      refine does_calc (setcc_calc op' a.ty.uns s1 _ hf) (fun s' hm q => ⟨by rw [hm]; exact hrel, ?_⟩) _
      rw [cmp_exact op' a.ty _ _ x y (wf_ty _ hp.wf.2.2.1) hrp hrq hx hy, hv] at q
      exact ⟨Reps.of_eq _ _ q, fun _ => q⟩
    · cases hg
  · cases hg

theorem truncOpt_ok (hok : E.Ok) (hs : HostShift) (rec : Node → G) (n : Node) (g : G) (hg : truncOpt hs E.loc rec n = some g) (ho : opt = true)
    (hE : ∀ m, weight m < weight n → ExprOk E P opt (rec m) m) : ExprOk E P opt g n := by
  unfold truncOpt at hg
  split at hg
  · rename_i t k t2 a b
    split at hg
    · rename_i hsz
      intro nt acc σ s v σ' c hp h hK
      simp only [neval] at h
      rw [bind_ok_iff] at h
      obtain ⟨⟨w, σ1⟩, h1, h2⟩ := h
      simp only [Res.ok.injEq, Prod.mk.injEq] at h2
      obtain ⟨rfl, rfl⟩ := h2
      have hb : t.kind ≠ .bool := by
        intro hb
        have : t.size = 1 := by unfold ITy.size; rw [hb]; rfl
        omega
      have hpe : Pre E opt nt acc (.bin k t2 a b) σ s := hp.left hp.wf.2 hp.stat fun h => h
      refine (arithOpt_ok hok hs rec 4 k a b g hg (Or.inl rfl) (t := t2) (by omega) ho hpe h1 (hE a (by simp only [weight]; omega)) (hE b (by simp only [weight]; omega)) c hK).imp
        fun s' _ q => ⟨q.1, Reps.big (t := t) (by omega) ?_, fun h => by cases h⟩
      rw [hsz.1]
      exact q.2.conv _ (fun e => hb ((cty_bool t).1 e)) (by rw [cty_width t hb]; omega)
    · cases hg
  · cases hg

/-- The truth value a tree stands for, possibly negated. -/
structure Good (E : Env) (opt : Bool) (nt : ITy) (n : Node) (d : Bool) (e : Node) : Prop where
  bool : Boolish e
  wf : WfNode E.Γ nt e
  stat : Stat E.dom opt e
  nn : NoNull n → NoNull e
  small : e = n ∨ weight e < weight n
  val : ∀ acc σ v σ', InRange (cty nt) acc → StoreOk E.Γ σ → neval acc n σ = .ok (v, σ') →
    ∃ w, neval acc e σ = .ok (w, σ') ∧ (w = 0 ∨ w = 1) ∧ v = if d then 1 - w else w

theorem conv01 (t : ITy) (v : Int) (hw : t.wf = true) (h : v = 0 ∨ v = 1) : conv (cty t) v = v := by
  have key : ∀ t ∈ allTys, conv (cty t) 0 = 0 ∧ conv (cty t) 1 = 1 := by decide
  have := key t (mem_allTys t hw)
  rcases h with rfl | rfl
  · exact this.1
  · exact this.2

theorem Good.self {nt : ITy} {n : Node} (hb : Boolish n) (hw : WfNode E.Γ nt n) (hs : Stat E.dom opt n) : Good E opt nt n false n :=
  ⟨hb, hw, hs, id, Or.inl rfl, fun acc σ v σ' ha hσ h => ⟨v, h, boolish_val hb (neval_range ha n σ hw hσ v σ' h).1 h, rfl⟩⟩

theorem Good.cast {nt : ITy} {t : ITy} {n e : Node} {d : Bool} (h : Good E opt nt n d e) (ht : t.wf = true) : Good E opt nt (.cast t n) d e := by
  refine ⟨h.bool, h.wf, h.stat, h.nn, Or.inr ?_, fun acc σ v σ' ha hσ hv => ?_⟩
  · have : weight e ≤ weight n := by
      rcases h.small with rfl | h
      · exact Nat.le_refl _
      · omega
    simp only [weight]
    split <;> omega
  · simp only [neval, bind_ok_iff, Res.ok.injEq, Prod.mk.injEq] at hv
    obtain ⟨⟨w, σ1⟩, h1, rfl, rfl⟩ := hv
    obtain ⟨u, hu, h01, hw⟩ := h.val acc σ w σ1 ha hσ h1
    refine ⟨u, hu, h01, ?_⟩
    rw [← hw]
    refine conv01 t w ht ?_
    rw [hw]
    rcases h01 with rfl | rfl <;> cases d <;> simp

theorem Good.not {nt : ITy} {n e : Node} {d : Bool} (h : Good E opt nt n d e) (hb : Boolish n) (hwf : WfNode E.Γ nt n) : Good E opt nt (.not n) (!d) e := by
  refine ⟨h.bool, h.wf, h.stat, h.nn, Or.inr ?_, fun acc σ v σ' ha hσ hv => ?_⟩
  · have : weight e ≤ weight n := by
      rcases h.small with rfl | h
      · exact Nat.le_refl _
      · omega
    simp only [weight]
    omega
  · simp only [neval, bind_ok_iff, Res.ok.injEq, Prod.mk.injEq] at hv
    obtain ⟨⟨w, σ1⟩, h1, rfl, rfl⟩ := hv
    obtain ⟨u, hu, h01, hw⟩ := h.val acc σ w σ1 ha hσ h1
    refine ⟨u, hu, h01, ?_⟩
    simp only
    rw [hw]
    rcases h01 with rfl | rfl <;> cases d <;> simp [truth]

/-- `bool_expr_opt` finds a tree with the same truth value, or nothing. -/
theorem boolOpt_good (nt : ITy) : ∀ (n : Node) (hn : Bool) (best : Option (Node × Bool)), WfNode E.Γ nt n → Stat E.dom opt n →
    (¬ Boolish n ∧ boolOpt n hn best = best) ∨ ∃ e f, boolOpt n hn best = some (e, f) ∧ Good E opt nt n (f ^^ hn) e := by
  have self : ∀ (n : Node) (hn : Bool) (best : Option (Node × Bool)), WfNode E.Γ nt n → Stat E.dom opt n → n.isTruth = false →
      boolOpt n hn best = (if n.ty.kind = .bool then some (n, hn) else best) →
      (¬ Boolish n ∧ boolOpt n hn best = best) ∨ ∃ e f, boolOpt n hn best = some (e, f) ∧ Good E opt nt n (f ^^ hn) e := by
    intro n hn best hw hs ht e
    rw [e]
    by_cases hb : n.ty.kind = .bool
    · rw [if_pos hb]
      exact Or.inr ⟨n, hn, rfl, by rw [Bool.xor_self]; exact Good.self (Or.inl hb) hw hs⟩
    · rw [if_neg hb]
      exact Or.inl ⟨fun h => h.elim hb fun h => (by rw [ht] at h; cases h), rfl⟩
  have truth : ∀ (n : Node) (hn : Bool) (best : Option (Node × Bool)), WfNode E.Γ nt n → Stat E.dom opt n → n.isTruth = true →
      boolOpt n hn best = some (n, hn) →
      (¬ Boolish n ∧ boolOpt n hn best = best) ∨ ∃ e f, boolOpt n hn best = some (e, f) ∧ Good E opt nt n (f ^^ hn) e := by
    intro n hn best hw hs ht e
    rw [e]
    exact Or.inr ⟨n, hn, rfl, by rw [Bool.xor_self]; exact Good.self (Or.inr ht) hw hs⟩
  intro n
  induction n with
  | cast t e ih =>
    intro hn best hw hs
    simp only [boolOpt]
    rcases ih hn (if t.kind = .bool then some (.cast t e, hn) else best) hw.2 hs with ⟨h1, h2⟩ | ⟨e', f, h1, h2⟩
    · rw [h2]
      by_cases hb : t.kind = .bool
      · rw [if_pos hb]
        exact Or.inr ⟨_, hn, rfl, by rw [Bool.xor_self]; exact Good.self (Or.inl hb) hw hs⟩
      · rw [if_neg hb]
        exact Or.inl ⟨fun h => h.elim hb fun h => (by cases h), rfl⟩
    · exact Or.inr ⟨e', f, h1, h2.cast hw.1⟩
  | not e ih =>
    intro hn best hw hs
    simp only [boolOpt]
    rcases ih (!hn) best hw.2 hs.1 with ⟨h1, _⟩ | ⟨e', f, h1, h2⟩
    · exact absurd hw.1 h1
    · refine Or.inr ⟨e', f, h1, ?_⟩
      have := h2.not hw.1 hw.2
      have e : (!(f ^^ !hn)) = (f ^^ hn) := by cases f <;> cases hn <;> rfl
      rwa [e] at this
  | cmp op a b => exact fun hn best hw hs => truth _ hn best hw hs rfl rfl
  | logand a b => exact fun hn best hw hs => truth _ hn best hw hs rfl rfl
  | logor a b => exact fun hn best hw hs => truth _ hn best hw hs rfl rfl
  | _ => exact fun hn best hw hs => self _ hn best hw hs rfl rfl

theorem Pre.good {nt : ITy} {acc : Int} {n e : Node} {d : Bool} {σ : Store} {s : St} (hp : Pre E opt nt acc n σ s) (h : Good E opt nt n d e) : Pre E opt nt acc e σ s :=
  hp.left h.wf h.stat h.nn

theorem xorIf_calc (s : St) (v : Int) (flip : Bool) (h : s.r .ax = BitVec.ofInt 64 v) (hv : v = 0 ∨ v = 1) :
    Calc E (if flip then [.alu .xor 1 (.imm 1) (.reg .ax)] else []) s fun s' => s'.r .ax = BitVec.ofInt 64 (if flip then 1 - v else v) := by
  cases flip
  · exact calc_nil s _ h
  · exact xor1_calc s v h hv

theorem genBoolOpt_ok (hu : UniqueLabels P) (hs : HostShift) (recE : Node → G) (recC : Bool → Label → Node → G) (n : Node) (g : G)
    (hg : genBoolOpt hs opt recE recC n = some g)
    (hE : ∀ m, weight m < weight n → ExprOk E P opt (recE m) m) (hC : ∀ m j l, weight m < weight n → CondOk E P opt (recC j l m) j l m) : ExprOk E P opt g n := by
  intro nt acc σ s v σ' c hp h hK
  have hgood := boolOpt_good (E := E) (opt := opt) nt n false none hp.wf hp.stat
  unfold genBoolOpt at hg
  split at hg
  · cases hg
  · rename_i e flip hb
    split at hg
    · cases hg
    · rename_i hne
      rw [hb] at hgood
      rcases hgood with ⟨_, h0⟩ | ⟨e', f, he, hgd⟩
      · cases h0
      · simp only [Option.some.injEq, Prod.mk.injEq] at he
        obtain ⟨rfl, rfl⟩ := he
        rw [Bool.xor_false] at hgd
        obtain ⟨w, hw, h01, hv⟩ := hgd.val acc σ v σ' hp.accr hp.sok h
        have hpe := hp.good hgd
        have hlt : weight e < weight n := hgd.small.resolve_left hne
        have fin : ∀ {x : Word}, x = BitVec.ofInt 64 (if flip then 1 - w else w) → Holds n v x := by
          intro x hx
          rw [← hv] at hx
          exact ⟨Reps.of_eq _ _ hx, fun _ => hx⟩
        have gen : g = (recE e ;; inss (if flip then [.alu .xor 1 (.imm 1) (.reg .ax)] else [])) →
            Does E P (g c).1 s fun s' => Rel E σ' s'.m ∧ Holds n v (s'.r .ax) := by
          rintro rfl
          refine does_seq _ _ c s _ _ (hE e hlt nt acc σ s w σ' c hpe hw (seq_st_le hK).1) fun s1 e1 q1 => ?_
          exact does_calc (xorIf_calc s1 w flip (q1.2.boolish hgd.bool) h01) (fun s' hm q => ⟨by rw [hm]; exact q1.1, fin q⟩) _
        split at hg
        · rename_i op a b
          injection hg with hg
          subst hg
          have hwc : weight (.cmp (flipCmp op flip) a b) < weight n := hlt
          have hpc : Pre E opt nt acc (.cmp (flipCmp op flip) a b) σ s := ⟨hpe.wf, hpe.accr, hpe.stat, hpe.sok, hpe.bp, hpe.rel, hpe.null⟩
          have hev : neval acc (.cmp (flipCmp op flip) a b) σ = .ok (if flip then 1 - w else w, σ') := by
            simp only [neval, bind_ok_iff, Res.ok.injEq, Prod.mk.injEq] at hw ⊢
            obtain ⟨p, h1, q, h2, h3, h4⟩ := hw
            refine ⟨p, h1, q, h2, ?_, h4⟩
            rw [cmp_flip, h3]
          exact (hE _ hwc nt acc σ s _ σ' c hpc hev hK).imp fun s' _ q => ⟨q.1, fin (q.2.2 rfl)⟩
        · rename_i a b
          injection hg with hg
          subst hg
          simp only [weight] at hlt
          exact (logical_ok hu recC false a b flip c s hpe hw hK (fun l => hC a false l (by omega)) (fun l => hC b false l (by omega))).imp fun s' _ q => ⟨q.1, fin q.2⟩
        · rename_i a b
          injection hg with hg
          subst hg
          simp only [weight] at hlt
          exact (logical_ok hu recC true a b flip c s hpe hw hK (fun l => hC a true l (by omega)) (fun l => hC b true l (by omega))).imp fun s' _ q => ⟨q.1, fin q.2⟩
        · rename_i t x
          split at hg
          · rename_i htb
            injection hg with hg
            subst hg
            simp only [neval, bind_ok_iff, Res.ok.injEq, Prod.mk.injEq] at hw
            obtain ⟨⟨u, σ1⟩, h1, rfl, rfl⟩ := hw
            have hz := cmpZero_val (opt := opt) hs hp.accr x (if flip then .eq else .ne) σ σ1 u hpe.wf.2 hp.sok h1
            have hwz := cmpZero_weight hs opt x (if flip then .eq else .ne) (wf_ty _ hpe.wf.2)
            simp only [weight, htb, if_true] at hlt
            have hpz : Pre E opt nt acc (cmpZero hs opt x (if flip then .eq else .ne)) σ s :=
              ⟨hz.1, hp.accr, cmpZero_stat hs opt E.dom x _ hpe.stat, hp.sok, hp.bp, hp.rel, hpe.null.imp (cmpZero_noNull hs opt x _) id⟩
            refine (hE _ (by omega) nt acc σ s _ σ1 c hpz hz.2 hK).imp fun s' _ q => ⟨q.1, fin ?_⟩
            rw [q.2.2 rfl, (cty_bool t).2 htb]
            by_cases h0 : u = 0 <;> cases flip <;> simp [cmpVal, truth, conv, h0]
          · injection hg with hg
            exact gen hg.symm
        · injection hg with hg
          exact gen hg.symm

/-- All shortcuts for expressions. -/
theorem exprOpt_ok (hok : E.Ok) (hu : UniqueLabels P) (hs : HostShift) (recE : Node → G) (recC : Bool → Label → Node → G) (n : Node) (g : G) (ho : opt = true)
    (hg : exprOpt hs opt E.loc recE recC n = some g)
    (hE : ∀ m, weight m < weight n → ExprOk E P opt (recE m) m) (hC : ∀ m j l, weight m < weight n → CondOk E P opt (recC j l m) j l m) : ExprOk E P opt g n := by
  unfold exprOpt at hg
  split at hg
  · rename_i w he
    injection hg with hg
    subst hg
    exact constLoad_ok hs n w he
  · split at hg
    · rename_i g' hl
      injection hg with hg
      subst hg
      exact loadOpt_ok hok n g' hl
    · split at hg
      · rename_i x hx
        injection hg with hg
        subst hg
        exact memLoad_ok hok n x hx
      · split at hg
        · rename_i t x r _ _ _
          injection hg with hg
          subst hg
          exact assignOpt_ok hok _ t x r (hE r (by simp only [weight]; omega))
        · split at hg
          · rename_i g' hb
            injection hg with hg
            subst hg
            exact genBoolOpt_ok hu hs recE recC n g' hb hE hC
          · split at hg
            · rename_i g' hb
              injection hg with hg
              subst hg
              exact gpOpt_ok hok hs recE n g' hb ho hE
            · split at hg
              · rename_i g' hb
                injection hg with hg
                subst hg
                exact truncOpt_ok hok hs recE n g' hb ho hE
              · split at hg
                · rename_i t d a b _ _ _ _ _ _ _
                  split at hg
                  · rename_i w he
                    injection hg with hg
                    subst hg
                    intro nt acc σ s v σ' c hp h hK
                    simp only [neval, bind_ok_iff] at h
                    obtain ⟨⟨vc, σ1⟩, h1, h2⟩ := h
                    obtain ⟨hbc, hta, htb, h4, wc, wa, wb⟩ := hp.wf
                    obtain ⟨sc, sa, sb, nc, na, nb⟩ := hp.stat
                    obtain ⟨rfl, rfl⟩ := const_val hs hp.accr wc hp.sok he h1
                    have hrc := (neval_range hp.accr d _ wc hp.sok vc _ h1).1
                    have hz := ofInt_zero_iff d.ty vc (wf_ty _ wc) hrc
                    by_cases h0 : vc = 0
                    · have h0' := hz.2 h0
                      simp only [h0', ne_eq, not_true_eq_false, if_false] at hK ⊢
                      rw [if_neg (by simp [h0])] at h2
                      refine (hE b (by simp only [weight]; omega) nt acc _ s v σ' c (hp.left wb sb fun _ => nb) h2 hK).imp fun s' _ q => ⟨q.1, ?_, fun h => by cases h⟩
                      have := q.2.1; rwa [htb] at this
                    · have h0' : ¬ BitVec.ofInt 64 vc = 0 := fun e => h0 (hz.1 e)
                      simp only [ne_eq, h0', not_false_eq_true, if_true] at hK ⊢
                      rw [if_pos h0] at h2
                      refine (hE a (by simp only [weight]; omega) nt acc _ s v σ' c (hp.left wa sa fun _ => na) h2 hK).imp fun s' _ q => ⟨q.1, ?_, fun h => by cases h⟩
                      have := q.2.1; rwa [hta] at this
                  · cases hg
                · cases hg

end
end Slimcc
