import Verif.Lemmas.GenPlain
/-! The code generated without shortcuts: leaves, control flow, assignment. -/
set_option autoImplicit false
namespace Slimcc
open Slimcc.Spec Slimcc.Spec.CTy Slimcc.Ty Slimcc.X86 Slimcc.Gen

section
variable {E : Env} {P : List Line} {opt : Bool}

theorem boolish_val {acc : Int} {e : Node} {σ σ1 : Store} {a : Int} (hb : Boolish e) (hr : InRange (cty e.ty) a) (h : neval acc e σ = .ok (a, σ1)) :
    a = 0 ∨ a = 1 := not_ok.boolish_val hb hr h

theorem Pre.range {nt : ITy} {acc : Int} {n : Node} {σ σ' : Store} {s : St} {v : Int} (h : Pre E opt nt acc n σ s) (e : neval acc n σ = .ok (v, σ')) :
    InRange (cty n.ty) v ∧ StoreOk E.Γ σ' := neval_range h.accr n σ h.wf h.sok v σ' e

theorem num_ok (t : ITy) (x : Word) : ExprOk E P opt (inss (loadVal t x)) (.num t x) := by
  intro nt acc σ s v σ' c hp h hK
  simp only [neval, Res.ok.injEq, Prod.mk.injEq] at h
  obtain ⟨rfl, rfl⟩ := h
  have := loadVal_calc (E := E) t (nval t x) s hp.wf.1 hp.wf.2
  rw [ofInt_nval] at this
  exact does_calc this (fun s' hm q => ⟨by rw [hm]; exact hp.rel, q.1, fun h => by cases h⟩) c

theorem null_ok (t : ITy) : ExprOk E P opt (lines []) (.null t) := by
  intro nt acc σ s v σ' c hp h hK
  simp only [neval, Res.ok.injEq, Prod.mk.injEq] at h
  obtain ⟨rfl, rfl⟩ := h
  refine does_nil s _ ⟨hp.rel, ?_, fun h => by cases h⟩ c
  rcases hp.null with hn | hn
  · exact hn.elim
  · simp only [Node.ty]; rw [hp.wf.2]; exact hn

theorem var_ok (hok : E.Ok) (t : ITy) (x : Nat) : ExprOk E P opt (inss [.lea (E.loc x) .ax, loadExt t (.ind .ax) .ax]) (.var t x) := by
  intro nt acc σ s v σ' c hp h hK
  have hr := hp.range h
  simp only [neval, Res.ok.injEq, Prod.mk.injEq] at h
  obtain ⟨rfl, rfl⟩ := h
  have hwf : t = ity (E.Γ x) := hp.wf
  have hx : E.dom x := hp.stat
  refine does_calc (Q := fun s' => Reps t (σ x) (s'.r .ax)) (calc_cons (Q := fun s1 => s1.r .ax = E.addr x) ?_ fun s1 hm _ q => ?_) (fun s' hm q => ⟨by rw [hm]; exact hp.rel, q, fun h => by cases h⟩) c
  · refine calc_setR' _ s .ax _ _ (show exec E.sym (.lea (E.loc x) .ax) _ = _ from rfl) scratch_ax ?_
    rw [setR_same, ea_loc hok hx s hp.bp]
  · refine (load_calc (σ := σ) (by rw [hm]; exact hp.rel) hx t (σ x) (.ind .ax) .ax (wf_ty _ hp.wf) hr.1 ?_ ⟨0, by omega⟩ ?_ scratch_ax).imp fun s' _ q => q.1
    · rw [E.size_eq, hwf]; exact Nat.le_refl _
    · simp only [ea, q]

theorem comma_ok (ga gb : G) (a b : Node) (ha : VoidOk E P opt ga a) (hb : ExprOk E P opt gb b) : ExprOk E P opt (ga ;; gb) (.comma a b) := by
  intro nt acc σ s v σ' c hp h hK
  simp only [neval, bind_ok_iff] at h
  obtain ⟨⟨va, σ1⟩, h1, h2⟩ := h
  have hK' := seq_st_le hK
  have hpa : Pre E opt nt acc a σ s := hp.left hp.wf.1 hp.stat.1 fun _ => hp.stat.2.2.1
  refine does_seq _ _ c s _ _ (ha nt acc σ s va σ1 c hpa hp.stat.2.2.1 h1 hK'.1) fun s1 e1 q1 => ?_
  exact (hb nt acc σ1 s1 v σ' _ (hp.right hp.wf.2 hp.stat.2.1 hp.stat.2.2.2 (hpa.range h1).2 e1.bp q1) h2 hK'.2).imp
    fun s' _ q => ⟨q.1, q.2.1, fun h => by cases h⟩

theorem castPlain_ok (g : G) (t : ITy) (e : Node) (hb : t.kind ≠ .bool) (ge : ExprOk E P opt g e) : ExprOk E P opt (g ;; inss (castIns e.ty t)) (.cast t e) := by
  intro nt acc σ s v σ' c hp h hK
  simp only [neval, bind_ok_iff, Res.ok.injEq, Prod.mk.injEq] at h
  obtain ⟨⟨a, σ1⟩, h1, rfl, rfl⟩ := h
  have hpe : Pre E opt nt acc e σ s := hp.left hp.wf.2 hp.stat fun h => h
  have hK' := seq_st_le hK
  refine does_seq _ _ c s _ _ (ge nt acc σ s a σ1 c hpe h1 hK'.1) fun s1 e1 q1 => ?_
  exact does_calc (cast_calc e.ty t a s1 (wf_ty _ hp.wf.2) hp.wf.1 hb (hpe.range h1).1 q1.2.1)
    (fun s' hm q => ⟨by rw [hm]; exact q1.1, q, fun h => by cases h⟩) _

/-- The comparison with zero that a conversion to `_Bool` stands for. -/
theorem cmpZero_val (hs : HostShift) {nt : ITy} {acc : Int} (hacc : InRange (cty nt) acc) (e : Node) (op : CmpOp) (σ σ' : Store) (v : Int)
    (hwf : WfNode E.Γ nt e) (hσ : StoreOk E.Γ σ) (h : neval acc e σ = .ok (v, σ')) :
    WfNode E.Γ nt (cmpZero hs opt e op) ∧ neval acc (cmpZero hs opt e op) σ = .ok (cmpVal op v 0, σ') := by
  have hr := neval_range hacc e σ hwf hσ v σ' h
  have hwe := wf_ty _ hwf
  have he : Impl E.Γ nt acc e e.ty (neval acc e) := ⟨hwf, rfl, fun σ _ => Or.inr rfl⟩
  have hz : Impl E.Γ nt acc (.num e.ty 0) e.ty (fun σ => .ok (0, σ)) := num_impl e.ty 0 hwe (zero_range e.ty hwe)
  have hu := usualConv_impl hs opt hacc he hz
  have hc := commonTy_ok e.ty e.ty hwe hwe
  have hcr : conv (cty (commonTy e.ty e.ty)) v = v := conv_id _ _ (common_self e.ty v hwe hr.1)
  refine ⟨⟨by rw [hu.1.ty, hu.2.ty], by rw [hu.1.ty]; exact hc.2.2, hu.1.wf, hu.2.wf⟩, ?_⟩
  have e1 := (hu.1.ref σ hσ).ok (a := (v, σ')) (by simp only [convRes, h, ok_bind, hcr])
  have e2 := (hu.2.ref σ' hr.2).ok (a := (0, σ')) (by
    simp only [convRes, ok_bind]
    rw [conv_id _ _ (zero_range _ hc.1)])
  simp only [cmpZero, neval, e1, ok_bind, e2]
where
  common_self (t : ITy) (v : Int) (hw : t.wf = true) (h : InRange (cty t) v) : InRange (cty (commonTy t t)) v := by
    have key : ∀ t ∈ allTys, (cty (commonTy t t)).minVal ≤ (cty t).minVal ∧ (cty t).maxVal ≤ (cty (commonTy t t)).maxVal := by decide +kernel
    have := key t (mem_allTys t hw)
    unfold InRange at h ⊢
    omega

/-- A conversion to `_Bool`. -/
theorem castBool_ok (hs : HostShift) (rec : Node → G) (t : ITy) (e : Node) (hb : t.kind = .bool)
    (ge : ExprOk E P opt (rec (cmpZero hs opt e .ne)) (cmpZero hs opt e .ne)) : ExprOk E P opt (rec (cmpZero hs opt e .ne)) (.cast t e) := by
  intro nt acc σ s v σ' c hp h hK
  simp only [neval, bind_ok_iff, Res.ok.injEq, Prod.mk.injEq] at h
  obtain ⟨⟨a, σ1⟩, h1, rfl, rfl⟩ := h
  have hz := cmpZero_val (opt := opt) hs hp.accr e .ne σ σ1 a hp.wf.2 hp.sok h1
  have hpz : Pre E opt nt acc (cmpZero hs opt e .ne) σ s :=
    ⟨hz.1, hp.accr, cmpZero_stat hs opt E.dom e .ne hp.stat, hp.sok, hp.bp, hp.rel, hp.null.imp (cmpZero_noNull hs opt e .ne) id⟩
  refine (ge nt acc σ s _ σ1 c hpz hz.2 hK).imp fun s' _ q => ⟨q.1, Reps.of_eq _ _ ?_, fun h => by cases h⟩
  have := q.2.2 rfl
  rw [this, (cty_bool t).2 hb]
  by_cases h0 : a = 0 <;> simp [cmpVal, truth, conv, h0]

/-- Two operands of `&&` or `||` that jump to the same place. -/
theorem logical_jump (recC : Bool → Label → Node → G) (isOr : Bool) (a b : Node) (l : Label) (c : Nat) (s : St)
    {nt : ITy} {acc : Int} {σ σ' : Store} {v : Int} (hp : Pre E opt nt acc (if isOr then .logor a b else .logand a b) σ s)
    (h : neval acc (if isOr then .logor a b else .logand a b) σ = .ok (v, σ')) (hK : ((recC isOr l a ;; recC isOr l b) c).1.st ≤ E.K)
    (ca : CondOk E P opt (recC isOr l a) isOr l a) (cb : CondOk E P opt (recC isOr l b) isOr l b) :
    DoesJ E P ((recC isOr l a ;; recC isOr l b) c).1 l s (isOr == decide (v ≠ 0)) fun s' => Rel E σ' s'.m := by
  have hwf : Boolish a ∧ Boolish b ∧ WfNode E.Γ nt a ∧ WfNode E.Γ nt b := by
    have := hp.wf; cases isOr <;> exact this
  have hst : Stat E.dom opt a ∧ Stat E.dom opt b ∧ NoNull a ∧ NoNull b := by
    have := hp.stat; cases isOr <;> exact this
  have hpa : Pre E opt nt acc a σ s := hp.left hwf.2.2.1 hst.1 fun _ => hst.2.2.1
  have hK2 := seq_st_le hK
  have hev : ∃ va σ1, neval acc a σ = .ok (va, σ1) ∧ ((isOr == decide (va ≠ 0)) = true ∧ σ' = σ1 ∧ (isOr == decide (v ≠ 0)) = true ∨
      (isOr == decide (va ≠ 0)) = false ∧ ∃ vb, neval acc b σ1 = .ok (vb, σ') ∧ (isOr == decide (vb ≠ 0)) = (isOr == decide (v ≠ 0))) := by
    cases isOr with
    | true =>
      simp only [if_true, neval, bind_ok_iff] at h
      obtain ⟨⟨va, σ1⟩, h1, h2⟩ := h
      refine ⟨va, σ1, h1, ?_⟩
      split at h2
      · rename_i h0
        simp only [Res.ok.injEq, Prod.mk.injEq] at h2
        obtain ⟨rfl, rfl⟩ := h2
        exact Or.inl ⟨by simpa using h0, rfl, rfl⟩
      · rename_i h0
        simp only [bind_ok_iff, Res.ok.injEq, Prod.mk.injEq] at h2
        obtain ⟨⟨vb, σ2⟩, h3, rfl, rfl⟩ := h2
        refine Or.inr ⟨by simpa using h0, vb, h3, ?_⟩
        by_cases e : vb = 0 <;> simp [truth, e]
    | false =>
      simp only [if_false, neval, bind_ok_iff, Bool.false_eq_true] at h
      obtain ⟨⟨va, σ1⟩, h1, h2⟩ := h
      refine ⟨va, σ1, h1, ?_⟩
      split at h2
      · rename_i h0
        simp only [Res.ok.injEq, Prod.mk.injEq] at h2
        obtain ⟨rfl, rfl⟩ := h2
        exact Or.inl ⟨by simpa using h0, rfl, rfl⟩
      · rename_i h0
        simp only [bind_ok_iff, Res.ok.injEq, Prod.mk.injEq] at h2
        obtain ⟨⟨vb, σ2⟩, h3, rfl, rfl⟩ := h2
        refine Or.inr ⟨by simpa using h0, vb, h3, ?_⟩
        by_cases e : vb = 0 <;> simp [truth, e]
  obtain ⟨va, σ1, h1, h2⟩ := hev
  have ja := ca nt acc σ s va σ1 c hpa hst.2.2.1 hwf.1 h1 hK2.1
  rcases h2 with ⟨t1, rfl, t2⟩ | ⟨t1, vb, h3, t2⟩
  · have := doesJ_two (recC isOr l a) (recC isOr l b) l c s _ false _ (fun s' => Rel E σ' s'.m) ja (fun _ s1 q => q)
      (fun hf => by rw [t1] at hf; cases hf)
    rw [t1, Bool.true_or] at this
    rw [t2]; exact this
  · have := doesJ_two (recC isOr l a) (recC isOr l b) l c s _ (isOr == decide (vb ≠ 0)) _ (fun s' => Rel E σ' s'.m) ja
      (fun ht => by rw [t1] at ht; cases ht)
      (fun _ s1 e1 q1 => cb nt acc σ1 s1 vb σ' _ (hp.right hwf.2.2.2 hst.2.1 hst.2.2.2 (hpa.range h1).2 e1.bp q1) hst.2.2.2 hwf.2.1 h3 hK2.2)
    rw [t1, Bool.false_or, t2] at this
    exact this

/-- The value of `&&` and `||`. -/
theorem logical_ok (hu : UniqueLabels P) (recC : Bool → Label → Node → G) (isOr : Bool) (a b : Node) (flip : Bool) (c : Nat) (s : St)
    {nt : ITy} {acc : Int} {σ σ' : Store} {v : Int} (hp : Pre E opt nt acc (if isOr then .logor a b else .logand a b) σ s)
    (h : neval acc (if isOr then .logor a b else .logand a b) σ = .ok (v, σ')) (hK : (logical recC isOr a b flip c).1.st ≤ E.K)
    (ca : ∀ l, CondOk E P opt (recC isOr l a) isOr l a) (cb : ∀ l, CondOk E P opt (recC isOr l b) isOr l b) :
    Does E P (logical recC isOr a b flip c).1 s fun s' => Rel E σ' s'.m ∧ s'.r .ax = BitVec.ofInt 64 (if flip then 1 - v else v) := by
  have hK1 : ((recC isOr (.short c) a ;; recC isOr (.short c) b) (c + 1)).1.st ≤ E.K := by
    unfold logical withLabel at hK
    dsimp only at hK
    rw [← seq_assoc] at hK
    exact (seq_st_le hK).1
  have hj := logical_jump recC isOr a b (.short c) (c + 1) s hp h hK1 (ca _) (cb _)
  have h01 : v = 0 ∨ v = 1 := by
    have hr := (hp.range h).1
    refine boolish_val (Or.inr ?_) hr h
    cases isOr <;> rfl
  have hsplit : logical recC isOr a b flip = withLabel fun c => (recC isOr (.short c) a ;; recC isOr (.short c) b) ;;
      lines [.ins (if isOr ^^ flip then .alu .xor 4 (.reg .ax) (.reg .ax) else .mov 4 (.imm 1) (.reg .ax)), .jmp (.fall c), .lab (.short c),
        .ins (if isOr ^^ flip then .mov 4 (.imm 1) (.reg .ax) else .alu .xor 4 (.reg .ax) (.reg .ax)), .lab (.fall c)] := by
    unfold logical
    congr 1; funext c
    rw [seq_assoc]
    cases isOr <;> cases flip <;> rfl
  rw [hsplit]
  refine does_pick hu _ _ _ (.short c) (.fall c) (c + 1) s (isOr == decide (v ≠ 0)) _ _ hj fun s1 q1 => ?_
  have zero : ∃ s2, exec E.sym (.alu .xor 4 (.reg .ax) (.reg .ax)) s1 = some s2 ∧ Eff E 0 0 s1 s2 ∧ Rel E σ' s2.m ∧ s2.r .ax = BitVec.ofInt 64 0 := by
    refine ⟨_, xor_self 4 .ax s1 (Or.inl rfl), Calc.eff rfl fun r hr => setR_other s1 .ax r 0 fun e => hr (e ▸ scratch_ax), q1, setR_same s1 .ax 0⟩
  have one : ∃ s2, exec E.sym (.mov 4 (.imm 1) (.reg .ax)) s1 = some s2 ∧ Eff E 0 0 s1 s2 ∧ Rel E σ' s2.m ∧ s2.r .ax = BitVec.ofInt 64 1 := by
    refine ⟨s1.setR .ax 1, ?_, Calc.eff rfl fun r hr => setR_other _ _ _ _ fun e => hr (e ▸ scratch_ax), q1, setR_same _ _ _⟩
    simp only [exec, put', X86.get, put_of_rop 4 _ _ (Or.inl rfl)]
    rfl
  rcases h01 with rfl | rfl <;> cases isOr <;> cases flip <;> first | exact zero | exact one

/-- Does a store to a variable. -/
theorem store_run (hok : E.Ok) {σ : Store} (x : Nat) (v : Int) (m : MemOp) (s : St) (hx : E.dom x) (hrel : Rel E σ s.m)
    (hm : ea E.sym s m = E.addr x) (hl : Low (ity (E.Γ x)).size v (s.r .ax)) :
    ∃ s', exec E.sym (.mov (ity (E.Γ x)).size (.reg .ax) (.mem m)) s = some s' ∧ Eff E 0 0 s s' ∧ Rel E (σ.set x v) s'.m ∧ s'.r = s.r := by
  refine ⟨{ s with m := wr s.m (ea E.sym s m) (ity (E.Γ x)).size (zx (ity (E.Γ x)).size (s.r .ax)) }, rfl, ?_, ?_, rfl⟩
  · refine eff_var hok hx _ _ (zx (ity (E.Γ x)).size (s.r .ax)) ?_ fun r _ => rfl
    dsimp only
    rw [hm, E.size_eq]
  · dsimp only
    rw [hm, ← E.size_eq]
    rw [← E.size_eq] at hl
    exact rel_set hok hrel hx v _ hl.zx

/-- The address of a variable is saved, something evaluated, and the result stored. -/
theorem saved_store (hok : E.Ok) (src : Reg) (x : Nat) (body : G) (c : Nat) (s : St) {σ' : Store} {v : Int} (t : ITy)
    (ht : t = ity (E.Γ x)) (hx : E.dom x) (hbp : s.r .bp = E.bp) (haddr : s.r src = E.addr x)
    (hK : (tmp (pushIns E.stk true src) body (fun l => popIn E.stk true l ++ [.mov t.size (.reg .ax) (.mem (.ind (popReg l)))]) c).1.st ≤ E.K)
    (hbody : ∀ s1, s1.r .bp = E.bp → s1.r .ax = s.r .ax → s1.r .cx = s.r .cx → (∀ σ, Rel E σ s.m → Rel E σ s1.m) →
      Does E P (body c).1 s1 fun s2 => Rel E σ' s2.m ∧ Reps t v (s2.r .ax)) :
    Does E P (tmp (pushIns E.stk true src) body (fun l => popIn E.stk true l ++ [.mov t.size (.reg .ax) (.mem (.ind (popReg l)))]) c).1 s
      fun s' => Rel E (σ'.set x v) s'.m ∧ Reps t v (s'.r .ax) := by
  refine does_tmp hok src true body _ c s _ _ hbp hK hbody fun s2 l hl h1 h2 h3 => ?_
  obtain ⟨i, hi, hlt⟩ := popReg_lt (pushIns E.stk true src) body
    (fun l => popIn E.stk true l ++ [.mov t.size (.reg .ax) (.mem (.ind (popReg l)))]) c
  rw [← hl] at hi
  obtain ⟨s3, x3, r3, m3, o3⟩ := popIn_run l _ _ s2 h1 h2
  rw [hi] at r3 o3
  have hax : s3.r .ax = s2.r .ax := o3 .ax (by simp)
  have hr3 : s3.r (.tmp i) = E.addr x := by
    rw [r3, ← haddr]; exact zx8 _
  obtain ⟨s4, x4, e4, q4, r4⟩ := store_run hok x v (.ind (.tmp i)) s3 hx (by rw [m3]; exact h3.1) (by simp only [ea, hr3])
    (by rw [hax, ← ht]; exact h3.2.low)
  refine ⟨s4, ?_, ?_, q4, ?_⟩
  · rw [execs_append, x3, hi, ht]
    simp only [Option.bind_some, execs, x4]
  · refine Eff.trans (eff_regs _ m3 fun r hr => ?_) (e4.mono (Nat.zero_le _) (Nat.zero_le _))
    rcases hr with rfl | ⟨j, hj, rfl⟩ | rfl
    · exact o3 _ (by simp)
    · exact o3 _ (by intro e; injection e; omega)
    · exact o3 _ (by simp)
  · rw [r4, hax]; exact h3.2

theorem does_lea (hok : E.Ok) (x : Nat) (c : Nat) (s : St) (hx : E.dom x) (hbp : s.r .bp = E.bp) :
    Does E P (inss [.lea (E.loc x) .ax] c).1 s fun s' => s'.r .ax = E.addr x ∧ s'.m = s.m := by
  refine does_calc (Q := fun s' => s'.r .ax = E.addr x) ?_ (fun s' hm q => ⟨q, hm⟩) c
  refine calc_setR' _ s .ax _ _ (show exec E.sym (.lea (E.loc x) .ax) _ = _ from rfl) scratch_ax ?_
  rw [setR_same, ea_loc hok hx s hbp]

theorem assignPlain_ok (hok : E.Ok) (g : G) (t : ITy) (x : Nat) (r : Node) (gr : ExprOk E P opt g r) :
    ExprOk E P opt (inss [.lea (E.loc x) .ax] ;; tmp (pushIns E.stk true .ax) g
        (fun l => popIn E.stk true l ++ [.mov t.size (.reg .ax) (.mem (.ind (popReg l)))])) (.assign t x r) := by
  intro nt acc σ s v σ' c hp h hK
  simp only [neval, bind_ok_iff, Res.ok.injEq, Prod.mk.injEq] at h
  obtain ⟨⟨a, σ1⟩, h1, rfl, rfl⟩ := h
  obtain ⟨ht, hrt, hwr⟩ := hp.wf
  obtain ⟨hx, hsr, hnr⟩ := hp.stat
  have hK' := seq_st_le hK
  refine does_seq _ _ c s _ _ (does_lea hok x c s hx hp.bp) fun s1 e1 q1 => ?_
  refine (saved_store hok .ax x g _ s1 t ht hx (e1.bp.trans hp.bp) q1.1 hK'.2 fun s2 b1 _ _ b4 => ?_).imp
    fun s' _ q => ⟨q.1, q.2, fun h => by cases h⟩
  refine (gr nt acc σ s2 a σ1 _ ⟨hwr, hp.accr, hsr, hp.sok, b1, b4 _ (by rw [q1.2]; exact hp.rel), Or.inl hnr⟩ h1 (tmp_st_le hK'.2)).imp
    fun s' _ q => ⟨q.1, ?_⟩
  have := q.2.1
  rwa [hrt] at this

/-- The tree that computes the new value of `x op= r` from the old one. -/
theorem nullLhs_val (hs : HostShift) {nt : ITy} {acc : Int} (hacc : InRange (cty nt) acc) (k : AKind) (t : ITy) (x : Nat) (r : Node) (σ σ1 : Store) (a w : Int)
    (ht : t = ity (E.Γ x)) (hn : NoNull r) (hwf : WfNode E.Γ nt r) (hσ : StoreOk E.Γ σ) (h : neval acc r σ = .ok (a, σ1))
    (h2 : nbinop k t r.ty (σ x) a = .ok w) :
    WfNode E.Γ t (nullLhs hs opt k t r) ∧ (nullLhs hs opt k t r).ty = t ∧ neval (σ x) (nullLhs hs opt k t r) σ = .ok (conv (cty t) w, σ1) := by
  have hwt : t.wf = true := by rw [ht]; exact ity_wf _
  have hax : InRange (cty t) (σ x) := by rw [ht, cty_ity]; exact hσ x
  have hnull : Impl E.Γ t (σ x) (.null t) t (fun σ' => .ok (σ x, σ')) := ⟨⟨hwt, rfl⟩, rfl, fun _ _ => Or.inr rfl⟩
  have hr : Impl E.Γ t (σ x) r r.ty (neval (σ x) r) := ⟨wf_nt E.Γ nt t r hn hwf, rfl, fun _ _ => Or.inr rfl⟩
  have hm := mkArith_impl hs opt hax k hnull hr
  have hc := newCast_impl hs opt hax hm t hwt
  refine ⟨hc.wf, hc.ty, (hc.ref σ hσ).ok ?_⟩
  simp only [convRes, binRes, ok_bind]
  rw [neval_acc (σ x) acc r σ hn, h]
  simp only [ok_bind, h2]

theorem arithAssignPlain_ok (hok : E.Ok) (hs : HostShift) (rec : Node → G) (k : AKind) (t : ITy) (x : Nat) (r : Node)
    (gr : ExprOk E P opt (rec (nullLhs hs opt k t r)) (nullLhs hs opt k t r)) :
    ExprOk E P opt (inss [.lea (E.loc x) .ax] ;;
      tmp (pushIns E.stk true .ax) (inss [loadExt t (.ind .ax) .ax] ;; rec (nullLhs hs opt k t r))
        (fun l => popIn E.stk true l ++ [.mov t.size (.reg .ax) (.mem (.ind (popReg l)))])) (.arithAssign k t x r) := by
  intro nt acc σ s v σ' c hp h hK
  simp only [neval, bind_ok_iff, Res.ok.injEq, Prod.mk.injEq] at h
  obtain ⟨⟨a, σ1⟩, h1, w, h2, rfl, rfl⟩ := h
  obtain ⟨ht, hnr, hwr⟩ := hp.wf
  obtain ⟨hx, hsr, _, _⟩ := hp.stat
  have hK' := seq_st_le hK
  have hv := nullLhs_val (opt := opt) hs hp.accr k t x r σ σ1 a w ht hnr hwr hp.sok h1 h2
  have hax : InRange (cty t) (σ x) := by rw [ht, cty_ity]; exact hp.sok x
  have hwt : t.wf = true := by rw [ht]; exact ity_wf _
  refine does_seq _ _ c s _ _ (does_lea hok x c s hx hp.bp) fun s1 e1 q1 => ?_
  refine (saved_store hok .ax x _ _ s1 t ht hx (e1.bp.trans hp.bp) q1.1 hK'.2 fun s2 b1 b2 _ b4 => ?_).imp
    fun s' _ q => ⟨q.1, q.2, fun h => by cases h⟩
  have hK2 := seq_st_le (tmp_st_le hK'.2)
  have hrel : Rel E σ s2.m := b4 _ (by rw [q1.2]; exact hp.rel)
  have hld := load_calc (E := E) hrel hx t (σ x) (.ind .ax) .ax hwt hax (by rw [E.size_eq, ht]; exact Nat.le_refl _) ⟨0, by omega⟩
    (by simp only [ea, b2, q1.1]) scratch_ax
  refine does_seq _ _ _ s2 _ _ (does_calc hld (fun s' hm q => (⟨by rw [hm]; exact hrel, q.1⟩ : Rel E σ s'.m ∧ Reps t (σ x) (s'.r .ax))) _) fun s3 e3 q3 => ?_
  refine (gr t (σ x) σ s3 _ σ1 _ ⟨hv.1, hax, nullLhs_stat hs opt E.dom k t r hsr hnr, hp.sok, e3.bp.trans b1, q3.1, Or.inr q3.2⟩ hv.2.2 hK2.2).imp
    fun s' _ q => ⟨q.1, ?_⟩
  have := q.2.1
  rwa [hv.2.1] at this

theorem postIncDecPlain_ok (hok : E.Ok) (hs : HostShift) (rec : Node → G) (t : ITy) (x : Nat) (r : Node)
    (gr : ExprOk E P opt (rec (nullLhs hs opt (.ar .add) t r)) (nullLhs hs opt (.ar .add) t r)) :
    ExprOk E P opt (inss [.lea (E.loc x) .ax, .mov 8 (.reg .ax) (.reg .cx), loadExt t (.ind .ax) .ax] ;;
      tmp (pushIns E.stk true .ax)
        (tmp (pushIns E.stk true .cx) (rec (nullLhs hs opt (.ar .add) t r))
          (fun l => popIn E.stk true l ++ [.mov t.size (.reg .ax) (.mem (.ind (popReg l)))]))
        (fun l => popTo E.stk true .ax l)) (.postIncDec t x r) := by
  intro nt acc σ s v σ' c hp h hK
  simp only [neval, bind_ok_iff, Res.ok.injEq, Prod.mk.injEq] at h
  obtain ⟨⟨a, σ1⟩, h1, w, h2, rfl, rfl⟩ := h
  obtain ⟨ht, hnr, hwr⟩ := hp.wf
  obtain ⟨hx, hsr, _, _⟩ := hp.stat
  have hK' := seq_st_le hK
  have hv := nullLhs_val (opt := opt) hs hp.accr (.ar .add) t x r σ σ1 a w ht hnr hwr hp.sok h1 h2
  have hax : InRange (cty t) (σ x) := by rw [ht, cty_ity]; exact hp.sok x
  have hwt : t.wf = true := by rw [ht]; exact ity_wf _
  have hstart : Calc E [.lea (E.loc x) .ax, .mov 8 (.reg .ax) (.reg .cx), loadExt t (.ind .ax) .ax] s fun s' => Reps t (σ x) (s'.r .ax) ∧ s'.r .cx = E.addr x := by
    refine calc_cons (Q := fun s1 => s1.r .ax = E.addr x) ?_ fun s1 hm1 _ q1 => ?_
    · refine calc_setR' _ s .ax _ _ (show exec E.sym (.lea (E.loc x) .ax) _ = _ from rfl) scratch_ax ?_
      rw [setR_same, ea_loc hok hx s hp.bp]
    · refine calc_cons (Q := fun s2 => s2.r .cx = E.addr x ∧ s2.r .ax = E.addr x) ?_ fun s2 hm2 _ q2 => ?_
      · refine calc_setR' _ s1 .cx _ _ (by simp only [exec, put']; rfl) scratch_cx ⟨?_, ?_⟩
        · rw [setR_same, put_of_rop 8 _ _ (Or.inr rfl)]
          simp only [X86.get, zx8, q1]
        · rw [setR_other _ _ _ _ (by simp), q1]
      · refine (load_calc (E := E) (σ := σ) (by rw [hm2, hm1]; exact hp.rel) hx t (σ x) (.ind .ax) .ax hwt hax (by rw [E.size_eq, ht]; exact Nat.le_refl _) ⟨0, by omega⟩
          (by simp only [ea, q2.2]) scratch_ax).imp fun s' _ q => ⟨q.1, ?_⟩
        rw [q.2 .cx (by simp), q2.1]
  refine does_seq _ _ c s _ _ (does_calc hstart (fun s' hm q => (⟨by rw [hm]; exact hp.rel, q⟩ : Rel E σ s'.m ∧ Reps t (σ x) (s'.r .ax) ∧ s'.r .cx = E.addr x)) c) fun s1 e1 q1 => ?_
  refine does_tmp hok .ax true _ _ _ s1 (fun s2 => Rel E (σ1.set x (conv (cty t) w)) s2.m) _ (e1.bp.trans hp.bp) hK'.2 (fun s2 b1 b2 b3 b4 => ?_) (fun s2 l hl h1 h2 h3 => ?_)
  · refine (saved_store hok .cx x _ _ s2 t ht hx b1 (b3.trans q1.2.2) (tmp_st_le hK'.2) fun s3 d1 d2 _ d4 => ?_).imp fun s' _ q => q.1
    refine (gr t (σ x) σ s3 _ σ1 _ ⟨hv.1, hax, nullLhs_stat hs opt E.dom (.ar .add) t r hsr hnr, hp.sok, d1, d4 _ (b4 _ q1.1), Or.inr ?_⟩ hv.2.2 (tmp_st_le (tmp_st_le hK'.2))).imp
      fun s' _ q => ⟨q.1, ?_⟩
    · rw [d2, b2]; exact q1.2.1
    · have := q.2.1
      rwa [hv.2.1] at this
  · obtain ⟨s3, x3, r3, m3, o3⟩ := popTo_run l _ .ax _ s2 h1 h2
    refine ⟨s3, x3, ?_, by rw [m3]; exact h3, ?_, fun h => by cases h⟩
    · exact Eff.mono (Calc.eff m3 fun r hr => o3 r fun e => hr (e ▸ scratch_ax)) (Nat.zero_le _) (Nat.zero_le _)
    · simp only [Node.ty]
      rw [r3, show rsz true = 8 from rfl, zx8]; exact q1.2.1

theorem cond_ok (hu : UniqueLabels P) (recC : Bool → Label → Node → G) (ga gb : G) (t : ITy) (d a b : Node) (cd : ∀ l, CondOk E P opt (recC false l d) false l d)
    (ha : ExprOk E P opt ga a) (hb : ExprOk E P opt gb b) :
    ExprOk E P opt (withLabel fun i => recC false (.else_ i) d ;; ga ;; lines [.jmp (.end_ i), .lab (.else_ i)] ;; gb ;; lines [.lab (.end_ i)]) (.cond t d a b) := by
  intro nt acc σ s v σ' c hp h hK
  simp only [neval, bind_ok_iff] at h
  obtain ⟨⟨vc, σ1⟩, h1, h2⟩ := h
  obtain ⟨hbc, hta, htb, h4, wc, wa, wb⟩ := hp.wf
  obtain ⟨sc, sa, sb, nc, na, nb⟩ := hp.stat
  have hpc : Pre E opt nt acc d σ s := hp.left wc sc fun _ => nc
  unfold withLabel at hK ⊢
  have hK1 := seq_st_le hK
  have hK2 := seq_st_le hK1.2
  have hK3 := seq_st_le (seq_st_le hK2.2).2
  refine does_ite hu _ _ _ (.else_ c) (.end_ c) (c + 1) s (false == decide (vc ≠ 0)) _ _ (cd _ nt acc σ s vc σ1 _ hpc nc hbc h1 hK1.1) (fun ht s1 e1 q1 => ?_) (fun ht s1 e1 q1 => ?_)
  · have : vc ≠ 0 := by simpa using ht
    rw [if_pos this] at h2
    refine (ha nt acc σ1 s1 v σ' _ (hp.right wa sa na (hpc.range h1).2 e1.bp q1) h2 hK2.1).imp fun s' _ q => ⟨q.1, ?_, fun h => by cases h⟩
    have := q.2.1; rwa [hta] at this
  · have : vc = 0 := by simpa using ht
    rw [if_neg (by simp [this])] at h2
    refine (hb nt acc σ1 s1 v σ' _ (hp.right wb sb nb (hpc.range h1).2 e1.bp q1) h2 hK3.1).imp fun s' _ q => ⟨q.1, ?_, fun h => by cases h⟩
    have := q.2.1; rwa [htb] at this

/-- Everything above together: the code without shortcuts. -/
theorem exprPlain_ok (hok : E.Ok) (hu : UniqueLabels P) (hs : HostShift) (recE recV : Node → G) (recC : Bool → Label → Node → G) (n : Node)
    (hE : ∀ m, weight m < weight n → ExprOk E P opt (recE m) m) (hV : ∀ m, weight m < weight n → VoidOk E P opt (recV m) m)
    (hC : ∀ m j l, weight m < weight n → CondOk E P opt (recC j l m) j l m) (hwf : ∃ nt, WfNode E.Γ nt n) :
    ExprOk E P opt (exprPlain hs opt E.loc E.stk recE recV recC n) n := by
  obtain ⟨nt, hwf⟩ := hwf
  cases n with
  | null t => exact null_ok t
  | num t v => exact num_ok t v
  | var t x => exact var_ok hok t x
  | un op t e =>
    have := un_ok (P := P) hok op t e (recE e) (hE e (by simp only [weight]; omega))
    cases op <;> exact this
  | assign t x r => exact assignPlain_ok hok _ t x r (hE r (by simp only [weight]; omega))
  | arithAssign k t x r =>
    refine arithAssignPlain_ok hok hs recE k t x r (hE _ ?_)
    have := nullLhs_weight hs opt k t r (by rw [hwf.1]; exact ity_wf _) (wf_ty _ hwf.2.2)
    simp only [weight]; omega
  | postIncDec t x r =>
    refine postIncDecPlain_ok hok hs recE t x r (hE _ ?_)
    have := nullLhs_weight hs opt (.ar .add) t r (by rw [hwf.1]; exact ity_wf _) (wf_ty _ hwf.2.2)
    simp only [weight]; omega
  | comma a b => exact comma_ok _ _ a b (hV a (by simp only [weight]; omega)) (hE b (by simp only [weight]; omega))
  | cast t e =>
    simp only [exprPlain]
    split
    · rename_i hb
      refine castBool_ok hs recE t e hb (hE _ ?_)
      have := cmpZero_weight hs opt e .ne (wf_ty _ hwf.2)
      simp only [weight, hb, if_true]; omega
    · rename_i hb
      exact castPlain_ok _ t e hb (hE e (by simp only [weight, if_neg hb]; omega))
  | cond t d a b =>
    exact cond_ok hu recC _ _ t d a b (fun l => hC d false l (by simp only [weight]; omega)) (hE a (by simp only [weight]; omega)) (hE b (by simp only [weight]; omega))
  | not e => exact not_ok _ e (hE e (by simp only [weight]; omega))
  | logand a b =>
    intro nt acc σ s v σ' c hp h hK
    exact (logical_ok hu recC false a b false c s hp h hK (fun l => hC a false l (by simp only [weight]; omega)) (fun l => hC b false l (by simp only [weight]; omega))).imp
      fun s' _ q => ⟨q.1, Reps.of_eq _ _ q.2, fun _ => q.2⟩
  | logor a b =>
    intro nt acc σ s v σ' c hp h hK
    exact (logical_ok hu recC true a b false c s hp h hK (fun l => hC a true l (by simp only [weight]; omega)) (fun l => hC b true l (by simp only [weight]; omega))).imp
      fun s' _ q => ⟨q.1, Reps.of_eq _ _ q.2, fun _ => q.2⟩
  | shift k t a b => exact shift_ok hok recE k t a b (hE a (by simp only [weight]; omega)) (hE b (by simp only [weight]; omega))
  | bin k t a b => exact bin_ok hok recE k t a b (hE a (by simp only [weight]; omega)) (hE b (by simp only [weight]; omega))
  | cmp op a b => exact cmp_ok hok recE op a b (hE a (by simp only [weight]; omega)) (hE b (by simp only [weight]; omega))

end
end Slimcc
