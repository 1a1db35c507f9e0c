import Verif.Lemmas.Ops3
import Verif.Lemmas.Ctl
/-! The code generated without shortcuts. -/
set_option autoImplicit false
namespace Slimcc
open Slimcc.Spec Slimcc.Spec.CTy Slimcc.Ty Slimcc.X86 Slimcc.Gen

/-- %rax holds the value of a tree: truth values are exact in the whole register. -/
def Holds (n : Node) (v : Int) (x : Word) : Prop := Reps n.ty v x ∧ (n.isTruth = true → x = BitVec.ofInt 64 v)

/-- What holds before the code of a tree runs. -/
structure Pre (E : Env) (opt : Bool) (nt : ITy) (acc : Int) (n : Node) (σ : Store) (s : St) : Prop where
  wf : WfNode E.Γ nt n
  accr : InRange (cty nt) acc
  stat : Stat E.dom opt n
  sok : StoreOk E.Γ σ
  bp : s.r .bp = E.bp
  rel : Rel E σ s.m
  null : NoNull n ∨ Reps nt acc (s.r .ax)

/-- The code computes the tree. -/
def ExprOk (E : Env) (P : List Line) (opt : Bool) (g : G) (n : Node) : Prop :=
  ∀ nt acc σ s v σ' c, Pre E opt nt acc n σ s → neval acc n σ = .ok (v, σ') → (g c).1.st ≤ E.K →
    Does E P (g c).1 s fun s' => Rel E σ' s'.m ∧ Holds n v (s'.r .ax)

/-- The code has the effects of the tree. -/
def VoidOk (E : Env) (P : List Line) (opt : Bool) (g : G) (n : Node) : Prop :=
  ∀ nt acc σ s v σ' c, Pre E opt nt acc n σ s → NoNull n → neval acc n σ = .ok (v, σ') → (g c).1.st ≤ E.K →
    Does E P (g c).1 s fun s' => Rel E σ' s'.m

/-- The code jumps to the label if the truth of the tree is `j`. -/
def CondOk (E : Env) (P : List Line) (opt : Bool) (g : G) (j : Bool) (l : Label) (n : Node) : Prop :=
  ∀ nt acc σ s v σ' c, Pre E opt nt acc n σ s → NoNull n → Boolish n → neval acc n σ = .ok (v, σ') → (g c).1.st ≤ E.K →
    DoesJ E P (g c).1 l s (j == decide (v ≠ 0)) fun s' => Rel E σ' s'.m

section
variable {E : Env} {P : List Line} {opt : Bool}

theorem Holds.boolish {n : Node} {v : Int} {x : Word} (h : Holds n v x) (hb : Boolish n) : x = BitVec.ofInt 64 v := by
  rcases hb with hb | hb
  · exact h.1.2 hb
  · exact h.2 hb

theorem seq_st (a b : G) (c : Nat) : ((a ;; b) c).1.st = max (a c).1.st (b (a c).2).1.st := rfl
theorem seq_st_le {a b : G} {c k : Nat} (h : ((a ;; b) c).1.st ≤ k) : (a c).1.st ≤ k ∧ (b (a c).2).1.st ≤ k := by
  rw [seq_st] at h; omega
theorem tmp_st_le {push : TLoc → List Ins} {body : G} {pop : TLoc → List Ins} {c k : Nat} (h : (tmp push body pop c).1.st ≤ k) :
    (body c).1.st ≤ k := Nat.le_trans (tmp_gp push body pop c).2 h

theorem rsz_rop (t : ITy) : rsz (decide (t.size = 8)) = rop t := by
  unfold rsz rop; by_cases h : t.size = 8 <;> simp [h]

/-- The left operand. -/
theorem Pre.left {nt : ITy} {acc : Int} {n a : Node} {σ : Store} {s : St} (h : Pre E opt nt acc n σ s) (hw : WfNode E.Γ nt a)
    (hs : Stat E.dom opt a) (hn : NoNull n → NoNull a) : Pre E opt nt acc a σ s :=
  ⟨hw, h.accr, hs, h.sok, h.bp, h.rel, h.null.imp hn id⟩

/-- An operand evaluated after another. -/
theorem Pre.right {nt : ITy} {acc : Int} {n b : Node} {σ σ1 : Store} {s s1 : St} (h : Pre E opt nt acc n σ s) (hw : WfNode E.Γ nt b)
    (hs : Stat E.dom opt b) (hn : NoNull b) (hσ : StoreOk E.Γ σ1) (hbp : s1.r .bp = s.r .bp) (hr : Rel E σ1 s1.m) : Pre E opt nt acc b σ1 s1 :=
  ⟨hw, h.accr, hs, hσ, hbp.trans h.bp, hr, Or.inl hn⟩

theorem CalcR.eff {op : Reg} {i gp : Nat} {l : List Ins} {s : St} {Q : St → Prop} (hop : op = .tmp i) (hi : i < gp) (h : CalcR E op l s Q) :
    ∃ s', execs E.sym l s = some s' ∧ Eff E gp 0 s s' ∧ s'.m = s.m ∧ Q s' := by
  obtain ⟨s', a, b, c, d⟩ := h
  refine ⟨s', a, eff_regs gp b fun r hr => ?_, b, d⟩
  rcases hr with rfl | ⟨j, hj, rfl⟩ | rfl
  · exact c _ nbp (by rw [hop]; simp)
  · exact c _ (ntmp j) (by rw [hop]; intro e; injection e; omega)
  · exact c _ nsp (by rw [hop]; simp)

/-- Both operands are evaluated and the left one is in a temporary register. -/
theorem binary_ok (hok : E.Ok) (rec : Node → G) (a b : Node) (k : Reg → List Ins) (c : Nat) (s : St) {nt : ITy} {acc : Int}
    {σ σ1 σ2 : Store} {va vb : Int} (R : St → Prop)
    (hpa : Pre E opt nt acc a σ s) (hwb : WfNode E.Γ nt b) (hsb : Stat E.dom opt b) (hnb : NoNull b)
    (ha : neval acc a σ = .ok (va, σ1)) (hb : neval acc b σ1 = .ok (vb, σ2)) (ea : ExprOk E P opt (rec a) a) (eb : ExprOk E P opt (rec b) b)
    (hK : (binary E.stk rec a b k c).1.st ≤ E.K)
    (hk : ∀ i s2, Low (rop a.ty) va (s2.r (.tmp i)) → Holds b vb (s2.r .ax) → Rel E σ2 s2.m → CalcR E (.tmp i) (k (.tmp i)) s2 R) :
    Does E P (binary E.stk rec a b k c).1 s fun s' => Rel E σ2 s'.m ∧ R s' := by
  unfold binary at hK ⊢
  have hK' := seq_st_le hK
  have hσ1 := (neval_range hpa.accr a σ hpa.wf hpa.sok va σ1 ha).2
  refine does_seq _ _ c s _ _ (ea nt acc σ s va σ1 c hpa ha hK'.1) fun s1 e1 q1 => ?_
  refine does_tmp hok .ax _ (rec b) _ _ s1 (fun s2 => Rel E σ2 s2.m ∧ Holds b vb (s2.r .ax)) _ (e1.bp.trans hpa.bp) hK'.2 (fun s2 h1 h2 h3 h4 => ?_) (fun s2 l hl h1 h2 h3 => ?_)
  · exact eb nt acc σ1 s2 vb σ2 _ (hpa.right hwb hsb hnb hσ1 (h1.trans hpa.bp.symm) (h4 _ q1.1)) hb (tmp_st_le hK'.2)
  · obtain ⟨i, hi, hlt⟩ := popReg_lt (pushIns E.stk (decide (a.ty.size = 8)) .ax) (rec b)
      (fun l => popIn E.stk (decide (a.ty.size = 8)) l ++ k (popReg l)) (rec a c).2
    rw [← hl] at hi
    obtain ⟨s3, x3, r3, m3, o3⟩ := popIn_run l _ _ s2 h1 h2
    rw [hi] at r3 o3
    rw [rsz_rop] at r3
    have hax : s3.r .ax = s2.r .ax := o3 .ax (by simp)
    obtain ⟨s4, x4, e4, m4, q4⟩ := CalcR.eff rfl hlt (hk i s3 (by rw [r3]; exact q1.2.1.1.zx) (by rw [hax]; exact h3.2) (by rw [m3]; exact h3.1))
    refine ⟨s4, ?_, ?_, ?_, q4⟩
    · rw [execs_append, x3, hi]; exact x4
    · refine Eff.trans (eff_regs _ m3 fun r hr => ?_) e4
      rcases hr with rfl | ⟨j, hj, rfl⟩ | rfl
      · exact o3 _ (by simp)
      · exact o3 _ (by intro e; injection e; omega)
      · exact o3 _ (by simp)
    · rw [m4, m3]; exact h3.1

theorem cmp_exact (op : CmpOp) (t : ITy) (a b : Int) (x y : Word) (hw : t.wf = true) (ha : InRange (cty t) a)
    (hb : InRange (cty t) b) (hx : Low t.size a x) (hy : Low t.size b y) :
    (if (cmpCC op t.uns).holds (cmpFlags t.size x y) then (1 : Word) else 0) = BitVec.ofInt 64 (cmpVal op a b) :=
  truth_word _ _ (cmp_flags op t a b x y hw ha hb hx hy) (compare_range _ _ _)

theorem un_ok (hok : E.Ok) (op : UnOp) (t : ITy) (e : Node) (g : G) (ge : ExprOk E P opt g e) :
    ExprOk E P opt (match op with | .pos => g | .neg => g ;; inss [.un .neg (rop e.ty) .ax] | .bnot => g ;; inss [.un .not 8 .ax]) (.un op t e) := by
  intro nt acc σ s v σ' c hp h hK
  simp only [neval, bind_ok_iff, Res.ok.injEq, Prod.mk.injEq] at h
  obtain ⟨⟨a, σ1⟩, h1, rfl, rfl⟩ := h
  obtain ⟨het, h4, hwe⟩ := hp.wf
  have hpe : Pre E opt nt acc e σ s := hp.left hwe hp.stat.1 fun h => h
  have hlow : ∀ {x : Word}, Holds e a x → Low t.size a x := fun h => by rw [← het]; exact h.1.low
  have h8 := (size_le t).1
  have hbool := cty_ne_bool t h4
  have hwid : 8 * t.size ≤ (cty t).width := by rw [width_size t h4]; exact Nat.le_refl _
  cases op with
  | pos =>
    refine (ge nt acc σ s a σ1 c hpe h1 hK).imp fun s' _ q => ⟨q.1, ?_, fun h => by cases h⟩
    exact Reps.big h4 (hlow q.2)
  | neg =>
    have hK' := seq_st_le hK
    refine does_seq _ _ c s _ _ (ge nt acc σ s a σ1 c hpe h1 hK'.1) fun s1 e1 q1 => ?_
    refine does_calc (un_calc .neg (rop e.ty) (rop_cases _) s1) (fun s' hm q => ⟨by rw [hm]; exact q1.1, ?_, fun h => by cases h⟩) _
    rw [het, rop_big t h4] at q
    refine Reps.big h4 ?_
    exact ((low_neg h8 (hlow q1.2)).same q).conv _ hbool hwid
  | bnot =>
    have hK' := seq_st_le hK
    refine does_seq _ _ c s _ _ (ge nt acc σ s a σ1 c hpe h1 hK'.1) fun s1 e1 q1 => ?_
    refine does_calc (un_calc .not 8 (Or.inr rfl) s1) (fun s' hm q => ⟨by rw [hm]; exact q1.1, ?_, fun h => by cases h⟩) _
    refine Reps.big h4 ?_
    have : s'.r .ax = ~~~ (s1.r .ax) := by
      have q : (s'.r .ax).setWidth 64 = (unOp .not (s1.r .ax)).setWidth 64 := q
      rw [BitVec.setWidth_eq, BitVec.setWidth_eq] at q
      exact q
    rw [this]
    exact (low_not h8 (hlow q1.2)).conv _ hbool hwid

theorem bin_ok (hok : E.Ok) (rec : Node → G) (k : ArOp) (t : ITy) (a b : Node) (ea : ExprOk E P opt (rec a) a) (eb : ExprOk E P opt (rec b) b) :
    ExprOk E P opt (binary E.stk rec a b (fun op => arithEnd k t.uns (rop a.ty) op)) (.bin k t a b) := by
  intro nt acc σ s v σ' c hp h hK
  simp only [neval, bind_ok_iff, Res.ok.injEq, Prod.mk.injEq] at h
  obtain ⟨⟨va, σ1⟩, h1, ⟨vb, σ2⟩, h2, r, h3, rfl, rfl⟩ := h
  obtain ⟨hta, htb, h4, hwa, hwb⟩ := hp.wf
  have hpa : Pre E opt nt acc a σ s := hp.left hwa hp.stat.1 fun h => h.1
  have ra := neval_range hp.accr a σ hwa hp.sok va σ1 h1
  have rb := neval_range hp.accr b σ1 hwb ra.2 vb σ2 h2
  have hwt := wf_ty _ hp.wf
  simp only [Node.ty] at hwt
  have hrt : rop a.ty = t.size := by rw [hta, rop_big t h4]
  refine (binary_ok hok rec a b _ c s (fun s' => Low t.size r (s'.r .ax)) hpa hwb hp.stat.2.1 hp.stat.2.2.1 h1 h2 ea eb hK fun i s2 q1 q2 _ => ?_).imp
    fun s' _ q => ⟨q.1, Reps.big h4 q.2, fun h => by cases h⟩
  rw [hrt] at q1 ⊢
  have qb := q2.1.low
  rw [htb] at qb
  rw [hta] at ra
  rw [htb] at rb
  exact arithEnd_calc k t va vb r (.tmp i) i rfl s2 hwt h4 ra.1 rb.1 q1 qb h3

theorem cmp_ok (hok : E.Ok) (rec : Node → G) (op : CmpOp) (a b : Node) (ea : ExprOk E P opt (rec a) a) (eb : ExprOk E P opt (rec b) b) :
    ExprOk E P opt (binary E.stk rec a b (fun r => .cmp (rop a.ty) (.reg .ax) (.reg r) :: setcc op a.ty.uns)) (.cmp op a b) := by
  intro nt acc σ s v σ' c hp h hK
  simp only [neval, bind_ok_iff, Res.ok.injEq, Prod.mk.injEq] at h
  obtain ⟨⟨va, σ1⟩, h1, ⟨vb, σ2⟩, h2, rfl, rfl⟩ := h
  obtain ⟨htb, h4, hwa, hwb⟩ := hp.wf
  have hpa : Pre E opt nt acc a σ s := hp.left hwa hp.stat.1 fun h => h.1
  have ra := neval_range hp.accr a σ hwa hp.sok va σ1 h1
  have rb := neval_range hp.accr b σ1 hwb ra.2 vb σ2 h2
  have hwt := wf_ty _ hwa
  have hrt : rop a.ty = a.ty.size := rop_big _ h4
  rw [htb] at rb
  refine (binary_ok hok rec a b _ c s (fun s' => s'.r .ax = BitVec.ofInt 64 (cmpVal op va vb)) hpa hwb hp.stat.2.1 hp.stat.2.2.1 h1 h2 ea eb hK fun i s2 q1 q2 _ => ?_).imp
    fun s' _ q => ⟨q.1, Reps.of_eq _ _ q.2, fun _ => q.2⟩
  rw [hrt] at q1 ⊢
  have qb := q2.1.low
  rw [htb] at qb
  refine (calc_cons (cmp_calc a.ty va vb (.reg .ax) (.reg (.tmp i)) s2 q1.zx qb.zx) fun s3 _ _ q => ?_).toR _
  obtain ⟨x, y, hx, hy, hf, _⟩ := q
  refine (setcc_calc op a.ty.uns s3 _ hf).imp fun s4 _ q => ?_
  rw [q]
  exact cmp_exact op a.ty va vb x y hwt ra.1 rb.1 hx hy

theorem mod256 {tc : ITy} {c : Int} (h0 : 0 ≤ c) (hlt : c < 64) {x : Word} (h : Reps tc c x) : Low 1 c (zx 1 x) :=
  (h.low.mono (size_le tc).2 (size_le tc).1).zx

theorem shift_ok (hok : E.Ok) (rec : Node → G) (k : ShKind) (t : ITy) (a b : Node) (ea : ExprOk E P opt (rec a) a) (eb : ExprOk E P opt (rec b) b) :
    ExprOk E P opt (rec a ;; tmp (pushIns E.stk (t.size = 8) .ax) (rec b ;; inss [.mov 1 (.reg .ax) (.reg .cx)])
      (fun l => popTo E.stk (t.size = 8) .ax l ++ [.shft k (rop t) .cl .ax])) (.shift k t a b) := by
  intro nt acc σ s v σ' c hp h hK
  simp only [neval, bind_ok_iff, Res.ok.injEq, Prod.mk.injEq] at h
  obtain ⟨⟨va, σ1⟩, h1, ⟨vb, σ2⟩, h2, r, h3, rfl, rfl⟩ := h
  obtain ⟨hta, h4, hwa, hwb⟩ := hp.wf
  have hpa : Pre E opt nt acc a σ s := hp.left hwa hp.stat.1 fun h => h.1
  have ra := neval_range hp.accr a σ hwa hp.sok va σ1 h1
  have rb := neval_range hp.accr b σ1 hwb ra.2 vb σ2 h2
  have hwt := wf_ty _ hp.wf
  simp only [Node.ty] at hwt
  rw [hta] at ra
  have hrt : rop t = t.size := rop_big t h4
  have hsz : t.size = 4 ∨ t.size = 8 := by have := size_cases t; omega
  have hK' := seq_st_le hK
  refine does_seq _ _ c s _ _ (ea nt acc σ s va σ1 c hpa h1 hK'.1) fun s1 e1 q1 => ?_
  have hlow : Low t.size va (s1.r .ax) := by have := q1.2.1.low; rwa [hta] at this
  have hsh := sh_low k t b.ty va vb r (zx (rop t) (s1.r .ax)) hwt h4 ra.1 (wf_ty _ hwb) rb.1 h3 (by rw [hrt]; exact hlow.zx)
  refine does_tmp hok .ax _ _ _ _ s1 (fun s2 => Rel E σ2 s2.m ∧ (s2.r .cx).toNat % 256 = vb.toNat) _ (e1.bp.trans hpa.bp) hK'.2
    (fun s2 h1' h2' h3' h4' => ?_) (fun s2 l hl h1' h2' h3' => ?_)
  · have hK2 := seq_st_le (tmp_st_le hK'.2)
    refine does_seq _ _ _ s2 _ _ (eb nt acc σ1 s2 vb σ2 _ (hpa.right hwb hp.stat.2.1 hp.stat.2.2 ra.2 (h1'.trans hpa.bp.symm) (h4' _ q1.1)) h2 hK2.1) fun s3 e3 q3 => ?_
    have h256 : vb < 256 := by have := hsh.2.1; omega
    refine does_calc (mov_cl_calc (.reg .ax) vb s3 hsh.1 h256 ?_) (fun s' hm q => ⟨by rw [hm]; exact q3.1, q.1⟩) _
    simp only [X86.get]
    exact (q3.2.1.low.mono (size_le b.ty).2 (size_le b.ty).1).zx
  · obtain ⟨s3, x3, r3, m3, o3⟩ := popTo_run l _ .ax _ s2 h1' h2'
    have hcx : s3.r .cx = s2.r .cx := o3 .cx (by simp)
    obtain ⟨s4, x4, m4, g4, q4⟩ := shft_cl_calc (E := E) k t.size hsz vb.toNat (by omega) s3 (by rw [hcx]; exact h3'.2)
    refine ⟨s4, ?_, ?_, ?_, ?_⟩
    · rw [execs_append, x3, hrt]; exact x4
    · refine Eff.mono (gp := 0) (st := 0) ?_ (Nat.zero_le _) (Nat.zero_le _)
      refine Eff.trans (Calc.eff m3 fun r hr => o3 r fun e => hr (e ▸ scratch_ax)) (Calc.eff m4 g4)
    · rw [m4, m3]; exact h3'.1
    · refine ⟨Reps.big h4 ?_, fun h => by cases h⟩
      have : rsz (decide (t.size = 8)) = rop t := rsz_rop t
      rw [this] at r3
      rw [r3] at q4
      exact hsh.2.2.same q4

theorem not_ok (g : G) (e : Node) (ge : ExprOk E P opt g e) : ExprOk E P opt (g ;; inss [.alu .xor 1 (.imm 1) (.reg .ax)]) (.not e) := by
  intro nt acc σ s v σ' c hp h hK
  simp only [neval, bind_ok_iff, Res.ok.injEq, Prod.mk.injEq] at h
  obtain ⟨⟨a, σ1⟩, h1, rfl, rfl⟩ := h
  have hpe : Pre E opt nt acc e σ s := hp.left hp.wf.2 hp.stat.1 fun h => h
  have hK' := seq_st_le hK
  refine does_seq _ _ c s _ _ (ge nt acc σ s a σ1 c hpe h1 hK'.1) fun s1 e1 q1 => ?_
  have h01 : a = 0 ∨ a = 1 := boolish_val hp.wf.1 (neval_range hp.accr e σ hp.wf.2 hp.sok a σ1 h1).1 h1
  refine does_calc (xor1_calc s1 a (q1.2.boolish hp.wf.1) h01) (fun s' hm q => ⟨by rw [hm]; exact q1.1, ?_⟩) _
  have : s'.r .ax = BitVec.ofInt 64 (truth (a = 0)) := by rw [q]; rcases h01 with rfl | rfl <;> rfl
  exact ⟨Reps.of_eq _ _ this, fun _ => this⟩
where
  boolish_val {acc : Int} {e : Node} {σ σ1 : Store} {a : Int} (hb : Boolish e) (hr : InRange (cty e.ty) a) (h : neval acc e σ = .ok (a, σ1)) : a = 0 ∨ a = 1 := by
    rcases hb with hb | hb
    · rw [(cty_bool _).2 hb, range_bool] at hr; omega
    · cases e <;> simp only [Node.isTruth, Bool.false_eq_true] at hb
      · simp only [neval, bind_ok_iff, Res.ok.injEq, Prod.mk.injEq] at h
        obtain ⟨p, _, rfl, _⟩ := h; exact truth_cases _
      · simp only [neval, bind_ok_iff, Res.ok.injEq, Prod.mk.injEq] at h
        obtain ⟨p, _, q, _, rfl, _⟩ := h; exact compare_range _ _ _
      · simp only [neval, bind_ok_iff] at h
        obtain ⟨p, _, h⟩ := h
        split at h
        · simp only [Res.ok.injEq, Prod.mk.injEq] at h; exact Or.inl h.1.symm
        · simp only [bind_ok_iff, Res.ok.injEq, Prod.mk.injEq] at h
          obtain ⟨q, _, rfl, _⟩ := h; exact truth_cases _
      · simp only [neval, bind_ok_iff] at h
        obtain ⟨p, _, h⟩ := h
        split at h
        · simp only [Res.ok.injEq, Prod.mk.injEq] at h; exact Or.inr h.1.symm
        · simp only [bind_ok_iff, Res.ok.injEq, Prod.mk.injEq] at h
          obtain ⟨q, _, rfl, _⟩ := h; exact truth_cases _

end
end Slimcc
