import Verif.Lemmas.AddrSet
import Verif.Model.AddrOp
import Verif.Lemmas.AddrLabels
/-! The code of compound assignments and increments of objects. -/
set_option autoImplicit false
namespace Slimcc.AGen
open Slimcc Slimcc.Spec Slimcc.Spec.CTy Slimcc.Ty Slimcc.X86 Slimcc.Gen Slimcc.Addr

section
variable {C : Cfg} {P : ODecls} {E : Env} {Pg : List Line} {M : Machine} {O : Objects}

theorem t8 (t : CTy) : t.bytes ≤ 8 := by rw [bytes_size]; exact (size_le _).1

/-- The right operand, a tree without the operand in %rax. -/
structure Rhs (C : Cfg) (E : Env) (r : Node) (σ σ' : Store) (v : Int) : Prop where
  wf : WfNode E.Γ ty_int r
  stat : Stat E.dom C.opt r
  nn : NoNull r
  val : neval 0 r σ = .ok (v, σ')

theorem Rhs.sok {r : Node} {σ σ' : Store} {v : Int} (h : Rhs C E r σ σ' v) (hσ : StoreOk E.Γ σ) : StoreOk E.Γ σ' :=
  (neval_range (by decide) r σ h.wf hσ v σ' h.val).2

theorem rhs_num (v : Int) (hv : InRange .int v) (σ : Store) : Rhs C E (.num ty_int (BitVec.ofInt 64 v)) σ σ v := by
  have h := num_impl (Γ := E.Γ) (nt := ty_int) (acc := 0) ty_int v rfl hv
  refine ⟨h.wf, trivial, trivial, ?_⟩
  show Res.ok _ = _
  rw [nval_ofInt ty_int v rfl hv]

/-- `nullLhs` for a left operand of any value. -/
theorem null_val (k : AKind) (t : CTy) (old : Int) (ho : InRange t old) (r : Node) {σ σ' : Store} {v w : Int} (hr : Rhs C E r σ σ' v) (hσ : StoreOk E.Γ σ)
    (h2 : nbinop k (ity t) r.ty old v = .ok w) :
    WfNode E.Γ (ity t) (nullLhs C.hs C.opt k (ity t) r) ∧ (nullLhs C.hs C.opt k (ity t) r).ty = ity t ∧
      neval old (nullLhs C.hs C.opt k (ity t) r) σ = .ok (conv t w, σ') := by
  have hax : InRange (cty (ity t)) old := by rw [cty_ity]; exact ho
  have hnull : Impl E.Γ (ity t) old (.null (ity t)) (ity t) (fun σ' => .ok (old, σ')) := ⟨⟨ity_wf t, rfl⟩, rfl, fun _ _ => Or.inr rfl⟩
  have hri : Impl E.Γ (ity t) old r r.ty (neval old r) := ⟨wf_nt E.Γ ty_int (ity t) r hr.nn hr.wf, rfl, fun _ _ => Or.inr rfl⟩
  have hm := mkArith_impl C.hs C.opt hax k hnull hri
  have hc := newCast_impl C.hs C.opt hax hm (ity t) (ity_wf t)
  refine ⟨hc.wf, hc.ty, (hc.ref σ hσ).ok ?_⟩
  simp only [convRes, binRes, ok_bind]
  rw [neval_acc old 0 r σ hr.nn, hr.val]
  simp only [ok_bind, h2, cty_ity]

/-- A tree whose leftmost operand is an object of type `t` and value `old` already in %rax. -/
structure NullOk (C : Cfg) (E : Env) (n : Node) (t : CTy) (old : Int) (σ σ' : Store) (w : Int) : Prop where
  wf : WfNode E.Γ (ity t) n
  ty : n.ty = ity t
  inr : InRange t old
  stat : Stat E.dom C.opt n
  val : StoreOk E.Γ σ → neval old n σ = .ok (w, σ')
  sok : StoreOk E.Γ σ → StoreOk E.Γ σ'

theorem null_ok (k : AKind) (t : CTy) (old : Int) (ho : InRange t old) (r : Node) {σ σ' : Store} {v w : Int} (hr : Rhs C E r σ σ' v)
    (h2 : nbinop k (ity t) r.ty old v = .ok w) : NullOk C E (nullLhs C.hs C.opt k (ity t) r) t old σ σ' (conv t w) := by
  refine ⟨?_, ?_, ho, nullLhs_stat C.hs C.opt E.dom k (ity t) r hr.stat hr.nn, fun hσ => (null_val k t old ho r hr hσ h2).2.2, hr.sok⟩
  all_goals
    have hax : InRange (cty (ity t)) old := by rw [cty_ity]; exact ho
    have hnull : Impl E.Γ (ity t) old (.null (ity t)) (ity t) (fun σ' => .ok (old, σ')) := ⟨⟨ity_wf t, rfl⟩, rfl, fun _ _ => Or.inr rfl⟩
    have hri : Impl E.Γ (ity t) old r r.ty (neval old r) := ⟨wf_nt E.Γ ty_int (ity t) r hr.nn hr.wf, rfl, fun _ _ => Or.inr rfl⟩
    have hc := newCast_impl C.hs C.opt hax (mkArith_impl C.hs C.opt hax k hnull hri) (ity t) (ity_wf t)
  · exact hc.wf
  · exact hc.ty

/-- The operation on the value in %rax. -/
theorem null_does (S : Setup C P E Pg M O) {n : Node} {t : CTy} {old w : Int} {σ σ' : Store} {s : St} (c : Nat)
    (hn : NullOk C E n t old σ σ' w) (h : Here E M σ s) (hax : Reps (ity t) old (s.r .ax))
    (hK : (genExpr C.hs C.opt E.loc E.stk n c).1.st ≤ E.K) :
    Does E Pg (genExpr C.hs C.opt E.loc E.stk n c).1 s fun s' => Here E M σ' s' ∧ Reps (ity t) w (s'.r .ax) := by
  have g : ExprOk E Pg C.opt (genExpr C.hs C.opt E.loc E.stk n) n := gen_ok S.hok S.hu C.hs _ .expr _ (Nat.le_refl _) ⟨_, hn.wf⟩
  refine (g (ity t) old σ s _ σ' c ⟨hn.wf, by rw [cty_ity]; exact hn.inr, hn.stat, h.sok, h.bp, h.rel, .inr hax⟩ (hn.val h.sok) hK).imp
    fun s' hE q => ⟨h.step hE hK (hn.sok h.sok) q.1, ?_⟩
  have := q.2.1
  rwa [hn.ty] at this

theorem eff_wr (t : CTy) (a : Word) (y : Word) (gp st : Nat) (s s' : St) (h1 : s'.m = wr s.m a t.bytes y) (h2 : s'.r .bp = s.r .bp) (h2' : s'.r .sp = s.r .sp)
    (h3 : ∀ i, gp ≤ i → i < GP_SLOTS → s'.r (.tmp i) = s.r (.tmp i)) : Eff (withObj E t a) gp st s s' := by
  refine ⟨h2, h2', h3, fun b hb _ => ?_⟩
  rw [h1]
  apply wr_other
  have := hb 0 trivial
  rw [withObj_addr0] at this
  exact this

/-- The address saved in a temporary, something evaluated, and one instruction that writes the object. -/
theorem tail_does (S : Setup C P E Pg M O) (t : CTy) (a : Word) (ha : E.Apart a t.bytes) (src : Reg) (body : G) (ins : Reg → Ins) (c : Nat)
    {σ1 σ2 : Store} {s1 : St} (Q : Word → Prop) (R : Word → Word → Prop) (h : Here E M σ1 s1) (hax : s1.r src = a)
    (hK : (tmp (pushIns E.stk true src) body (fun p => popIn E.stk true p ++ [ins (popReg p)]) c).1.st ≤ E.K)
    (hbody : ∀ s2, Here E M σ1 s2 → s2.r .ax = s1.r .ax → Does E Pg (body c).1 s2 (fun s' => Here E M σ2 s' ∧ Q (s'.r .ax)))
    (hins : ∀ s3 i, Here E M σ2 s3 → Q (s3.r .ax) → s3.r (.tmp i) = a →
      ∃ y f, exec E.sym (ins (.tmp i)) s3 = some { s3 with m := wr s3.m a t.bytes (zx t.bytes y), f := f } ∧ R y (s3.r .ax)) :
    Does (withObj E t a) Pg (tmp (pushIns E.stk true src) body (fun p => popIn E.stk true p ++ [ins (popReg p)]) c).1 s1 fun s' =>
      ∃ y, Wrote E M σ2 a t.bytes y s' ∧ R y (s'.r .ax) := by
  have hok' := withObj_ok S.hok t a ha
  refine does_tmp_mem hok' src true _ _ _ s1 (fun s2 => Here E M σ2 s2 ∧ Q (s2.r .ax)) _ h.bp hK (fun s2 h1 h2 _ h4 h5 => ?_) (fun s2 p hp h1 h2 h3 => ?_)
  · exact withObj_does t a (hbody s2 (withObj_keep t a h4 h5 h h1) h2)
  · obtain ⟨i, hi, hlt⟩ := popReg_lt (pushIns E.stk true src) body (fun p => popIn E.stk true p ++ [ins (popReg p)]) c
    rw [← hp] at hi
    obtain ⟨s3, x3, r3, m3, o3⟩ := popIn_run (E := withObj E t a) p _ _ s2 h1 h2
    rw [hi] at r3 o3
    rw [show rsz true = 8 from rfl, zx8, hax] at r3
    have hax3 : s3.r .ax = s2.r .ax := o3 .ax (by simp)
    have hbp3 : s3.r .bp = s2.r .bp := o3 .bp (by simp)
    have h3' : Here E M σ2 s3 := ⟨h3.1.sok, hbp3.trans h3.1.bp, by rw [m3]; exact h3.1.rel, fun b hb => by rw [m3]; exact h3.1.mem b hb⟩
    obtain ⟨y, f, x4, hR⟩ := hins s3 i h3' (by rw [hax3]; exact h3.2) r3
    have x3 : execs E.sym (popIn E.stk true p) s2 = some s3 := x3
    refine ⟨{ s3 with m := wr s3.m a t.bytes (zx t.bytes y), f := f }, ?_, ?_, y, wrote (t8 t) ha h3' y rfl rfl, hR⟩
    · show execs E.sym _ _ = _
      rw [execs_append, x3, hi]
      simp only [Option.bind_some, execs, x4]
    · refine eff_wr t a (zx t.bytes y) _ _ _ _ (by simp only; rw [m3]) (o3 .bp (by simp)) (o3 .sp (by simp)) fun j hj _ => ?_
      have hj : (tmp (pushIns E.stk true src) body (fun p => popIn E.stk true p ++ [ins (popReg p)]) c).1.gp ≤ j := hj
      exact o3 _ (by intro e; injection e; omega)

/-- Loading the object. -/
theorem load_old {σ : Store} {s : St} (h : Here E M σ s) (t : CTy) (a : Word) (ha : E.Apart a t.bytes) (hv : InRange t (M.int t a)) (hax : s.r .ax = a) :
    Calc E (loadA (.int t)) s fun s' => Reps (ity t) (M.int t a) (s'.r .ax) :=
  loadTy_calc h (.int t) rfl a ⟨ha, hv⟩ (.off .ax 0) (by rw [ea_off, hax]; simp)

theorem store_ins {σ : Store} (t : CTy) (a : Word) (v : Int) (s3 : St) (i : Nat) (_ : Here E M σ s3) (hq : Reps (ity t) v (s3.r .ax)) (hi : s3.r (.tmp i) = a) :
    ∃ y f, exec E.sym (.mov t.bytes (.reg .ax) (.mem (.off (.tmp i) 0))) s3 = some { s3 with m := wr s3.m a t.bytes (zx t.bytes y), f := f } ∧
      (y = s3.r .ax ∧ Reps (ity t) v (s3.r .ax)) := by
  refine ⟨s3.r .ax, s3.f, ?_, rfl, hq⟩
  have ea3 : ea E.sym s3 (.off (.tmp i) 0) = a := by rw [ea_off, hi]; simp
  rw [← ea3]; rfl

/-- codegen.c:1684-1690. -/
theorem opN_does (S : Setup C P E Pg M O) {l : LV} {T : OTy} {t : CTy} (hl : LOk C P E l T) {n : Node}
    {σ σ1 σ2 : Store} {s : St} {a : Word} {w : Int} (c : Nat) (h : Here E M σ s) (hf : l.Fine P M E σ) (he : l.eval P M σ = .ok (a, σ1))
    (ha : E.Apart a t.bytes) (hn : NullOk C E n t (M.int t a) σ1 σ2 w)
    (hK : (genOpN C P E.loc O.at_ E.stk n t (buildL C P l) c).1.st ≤ E.K) :
    Does (withObj E t a) Pg (genOpN C P E.loc O.at_ E.stk n t (buildL C P l) c).1 s fun s' =>
      StoreOk E.Γ σ2 ∧ Wrote E M σ2 a t.bytes (s'.r .ax) s' ∧ Reps (ity t) w (s'.r .ax) := by
  unfold genOpN at hK ⊢
  have hK' := seq_st_le hK
  refine does_seq _ _ c s _ _ (withObj_does t a (addr_gives S hl σ s σ1 a c h hf he hK'.1)) fun s1 _ q1 => ?_
  refine (tail_does (σ2 := σ2) S t a ha .ax _ (fun g => .mov t.bytes (.reg .ax) (.mem (.off g 0))) _ (fun x => Reps (ity t) w x)
    (fun y x => y = x ∧ Reps (ity t) w x) q1.1 q1.2 hK'.2 (fun s2 h2' hx => ?_) (fun s3 i h3 hq hi => ?_)).imp fun s' _ q => ?_
  · have hK2 := seq_st_le (tmp_st_le hK'.2)
    refine does_seq _ _ _ s2 _ _ (here_calc h2' (load_old h2' t a ha hn.inr (hx.trans q1.2)) _) fun s3 _ q3 => ?_
    exact null_does S _ hn q3.1 q3.2 hK2.2
  · exact store_ins t a _ s3 i h3 hq hi
  · obtain ⟨y, q2, rfl, q3⟩ := q
    exact ⟨hn.sok q1.1.sok, q2, q3⟩

theorem op_does (S : Setup C P E Pg M O) {l : LV} {t : CTy} (hl : LOk C P E l (.int t)) (k : AKind) (r : Node)
    {σ σ1 σ2 : Store} {s : St} {a : Word} {v w : Int} (c : Nat) (h : Here E M σ s) (hf : l.Fine P M E σ) (he : l.eval P M σ = .ok (a, σ1))
    (ha : E.Apart a t.bytes) (hv : InRange t (M.int t a)) (hr : Rhs C E r σ1 σ2 v) (h2 : nbinop k (ity t) r.ty (M.int t a) v = .ok w)
    (hK : (genOp C P E.loc O.at_ E.stk k t (buildL C P l) r c).1.st ≤ E.K) :
    Does (withObj E t a) Pg (genOp C P E.loc O.at_ E.stk k t (buildL C P l) r c).1 s fun s' =>
      StoreOk E.Γ σ2 ∧ Wrote E M σ2 a t.bytes (s'.r .ax) s' ∧ Reps (ity t) (conv t w) (s'.r .ax) :=
  opN_does S hl c h hf he ha (null_ok k t _ hv r hr h2) hK

/-- The state after the write, seen as a state with the object in other memory. -/
theorem Wrote.here {σ : Store} {a x : Word} {n : Nat} {s : St} (h : Wrote E M σ a n x s) (hσ : StoreOk E.Γ σ) : Here E ⟨M.addr, s.m⟩ σ s :=
  ⟨hσ, h.bp, h.rel, fun _ _ => rfl⟩

theorem Wrote.after {σ σ' : Store} {a x : Word} {n : Nat} {s s' : St} (hn : n ≤ 8) (ha : E.Apart a n) (h : Wrote E M σ a n x s)
    (h' : Here E ⟨M.addr, s.m⟩ σ' s') : Wrote E M σ' a n x s' := by
  refine ⟨h'.bp, h'.rel, fun b hb hi => (h'.mem b hb).trans (h.mem b hb hi), ?_⟩
  rw [← h.obj]
  exact rd_congr _ _ _ _ hn fun b hb => h'.mem b (ha b hb)

theorem objLoad_calc' {s : St} (t : CTy) (a : Word) (hm : ∀ b, InBlk a t.bytes b → s.m b = M.mem b) (hv : InRange t (M.int t a))
    (he : ea E.sym s (.off .ax 0) = a) : Calc E (loadA (.int t)) s fun s' => Reps (ity t) (M.int t a) (s'.r .ax) ∧ s'.r .cx = s.r .cx := by
  have := load_calc (E := objE E t a) (objE_rel E M t a s.m hm) (x := 0) rfl (ity t) (M.int t a) (.off .ax 0) .ax (ity_wf t) (by rw [cty_ity]; exact hv)
    (by show (ity t).size ≤ (objE E t a).size 0; rw [← bytes_size]; exact Nat.le_refl _) ⟨0, by show M.int t a - M.int t a = _; omega⟩
    (by rw [objE_addr]; exact he) scratch_ax
  exact this.imp fun s' _ q => ⟨q.1, q.2 .cx (by simp)⟩

/-- parse.c:3956-3974, codegen.c:1691-1700. -/
theorem postN_does (S : Setup C P E Pg M O) {l : LV} {T : OTy} {t : CTy} (hl : LOk C P E l T) {n n' : Node}
    {σ σ1 : Store} {s : St} {a : Word} {w : Int} (c : Nat) (h : Here E M σ s) (hf : l.Fine P M E σ) (he : l.eval P M σ = .ok (a, σ1))
    (ha : E.Apart a t.bytes) (hn : NullOk C E n t (M.int t a) σ1 σ1 w) (hn' : t ≠ .bool → NullOk C E n' t w σ1 σ1 (M.int t a))
    (hK : (genPostN C P E.loc O.at_ E.stk t (buildL C P l) n n' c).1.st ≤ E.K) :
    Does (withObj E t a) Pg (genPostN C P E.loc O.at_ E.stk t (buildL C P l) n n' c).1 s fun s' =>
      ∃ y, Wrote E M σ1 a t.bytes y s' ∧ Reps (ity t) w y ∧ Reps (ity t) (M.int t a) (s'.r .ax) := by
  have hv := hn.inr
  unfold genPostN at hK ⊢
  by_cases ho : (C.opt && decide (t ≠ .bool)) = true
  · rw [if_pos ho] at hK ⊢
    have hK' := seq_st_le hK
    have htb : t ≠ .bool := by simp only [Bool.and_eq_true, decide_eq_true_eq] at ho; exact ho.2
    refine does_seq _ _ c s _ _ (opN_does S hl c h hf he ha hn hK'.1) fun s1 _ q1 => ?_
    have S' : Setup C P E Pg ⟨M.addr, s1.m⟩ O := ⟨S.hC, S.hok, S.hu, S.hΓ, S.hO⟩
    refine (withObj_does t a (null_does S' _ (hn' htb) (q1.2.1.here q1.1) q1.2.2 hK'.2)).imp fun s' _ q => ?_
    exact ⟨s1.r .ax, q1.2.1.after (t8 t) ha q.1, q1.2.2, q.2⟩
  · rw [if_neg ho] at hK ⊢
    have hK' := seq_st_le hK
    have hK2 := seq_st_le hK'.2
    refine does_seq _ _ c s _ _ (withObj_does t a (addr_gives S hl σ s σ1 a c h hf he hK'.1)) fun s1 _ q1 => ?_
    have hstart : Calc E (.mov 8 (.reg .ax) (.reg .cx) :: loadA (.int t)) s1 fun s' => Reps (ity t) (M.int t a) (s'.r .ax) ∧ s'.r .cx = a := by
      refine calc_cons (Q := fun s2 => s2.r .cx = a ∧ s2.r .ax = a) ?_ fun s2 hm2 hr2 q2 => ?_
      · refine calc_setR' _ s1 .cx _ _ (by simp only [exec, put']; rfl) scratch_cx ⟨?_, ?_⟩
        · rw [setR_same, put_of_rop 8 _ _ (Or.inr rfl)]
          simp only [X86.get, zx8, q1.2]
        · rw [setR_other _ _ _ _ (by simp), q1.2]
      · have h2' : Here E M σ1 s2 := ⟨q1.1.sok, (hr2 .bp nbp).trans q1.1.bp, by rw [hm2]; exact q1.1.rel, fun b hb => by rw [hm2]; exact q1.1.mem b hb⟩
        have := objLoad_calc' (E := E) (M := M) (s := s2) t a (h2'.obj ha) hv (by rw [ea_off, q2.2]; simp)
        exact this.imp fun s' _ q => ⟨q.1, by rw [q.2, q2.1]⟩
    refine does_seq _ _ _ s1 _ _ (withObj_does t a (here_calc q1.1 hstart _)) fun s2 _ q2 => ?_
    refine does_tmp_mem (withObj_ok S.hok t a ha) .ax true _ _ _ s2 (fun s3 => ∃ y, Wrote E M σ1 a t.bytes y s3 ∧ Reps (ity t) w y) _ q2.1.bp hK2.2
      (fun s3 b1 b2 b3 b4 b5 => ?_) (fun s3 p hp b1 b2 b3 => ?_)
    · have h3 : Here E M σ1 s3 := withObj_keep t a b4 b5 q2.1 b1
      refine (tail_does (σ2 := σ1) S t a ha .cx _ (fun g => .mov t.bytes (.reg .ax) (.mem (.off g 0))) _ (fun x => Reps (ity t) w x)
        (fun y x => y = x ∧ Reps (ity t) w x) h3 (b3.trans q2.2.2) (tmp_st_le hK2.2) (fun s4 h4 hx => ?_) (fun s4 i h4 hq hi => ?_)).imp fun s' _ q => ?_
      · exact null_does S _ hn h4 (by rw [hx, b2]; exact q2.2.1) (tmp_st_le (tmp_st_le hK2.2))
      · exact store_ins t a _ s4 i h4 hq hi
      · obtain ⟨y, d1, rfl, d3⟩ := q
        exact ⟨_, d1, d3⟩
    · obtain ⟨s4, x4, r4, m4, o4⟩ := popTo_run (E := withObj E t a) p _ .ax _ s3 b1 b2
      obtain ⟨y, d1, d2⟩ := b3
      refine ⟨s4, x4, ?_, y, ⟨(o4 .bp (by simp)).trans d1.bp, by rw [m4]; exact d1.rel, by rw [m4]; exact d1.mem, by rw [m4]; exact d1.obj⟩, d2, ?_⟩
      · exact Eff.mono (Calc.eff m4 fun r hr => o4 r fun e => hr (e ▸ scratch_ax)) (Nat.zero_le _) (Nat.zero_le _)
      · rw [r4, show rsz true = 8 from rfl, zx8]; exact q2.2.1

theorem post_does (S : Setup C P E Pg M O) {l : LV} {t : CTy} (hl : LOk C P E l (.int t)) (d : Int) (hd : d = 1 ∨ d = -1)
    {σ σ1 : Store} {s : St} {a : Word} {w : Int} (c : Nat) (h : Here E M σ s) (hf : l.Fine P M E σ) (he : l.eval P M σ = .ok (a, σ1))
    (ha : E.Apart a t.bytes) (hv : InRange t (M.int t a)) (h2 : nbinop (.ar .add) (ity t) ty_int (M.int t a) d = .ok w)
    (hK : (genPost C P E.loc O.at_ E.stk t (buildL C P l) d c).1.st ≤ E.K) :
    Does (withObj E t a) Pg (genPost C P E.loc O.at_ E.stk t (buildL C P l) d c).1 s fun s' =>
      ∃ y, Wrote E M σ1 a t.bytes y s' ∧ Reps (ity t) (conv t w) y ∧ Reps (ity t) (M.int t a) (s'.r .ax) := by
  have hdr : InRange .int d ∧ InRange .int (-d) := by rcases hd with rfl | rfl <;> decide
  refine postN_does S hl c h hf he ha (null_ok (.ar .add) t _ hv _ (rhs_num d hdr.1 σ1) h2) (fun htb => ?_) hK
  obtain ⟨w0, e0, w', e1, e2⟩ := inc_undo (ity t) (ity_wf t) (fun e => htb (by have := (cty_bool (ity t)).2 e; rwa [cty_ity] at this)) (M.int t a) d hd (by rw [cty_ity]; exact hv)
  obtain rfl : w0 = w := by have := e0.symm.trans h2; injection this
  rw [cty_ity] at e1 e2
  have := null_ok (C := C) (E := E) (.ar .add) t _ (conv_range t w0) _ (rhs_num (-d) hdr.2 σ1) e1
  rwa [e2] at this

theorem wr_zx {m : Mem} {a : Word} {n : Nat} (hn : n ≤ 8) (y : Word) : wr m a n y = wr m a n (zx n y) := by
  funext b
  by_cases hb : InBlk a n b
  · exact byte_of_rd hn (by rw [rd_wr_same _ _ _ _ hn, rd_wr_same _ _ _ _ hn, zx_zx]) hb
  · rw [wr_other _ _ _ _ _ hb, wr_other _ _ _ _ _ hb]

/-- The low bytes of the object in memory. -/
theorem old_low {σ : Store} {s : St} (h : Here E M σ s) (t : CTy) (a : Word) (ha : E.Apart a t.bytes) (m : MemOp) (he : ea E.sym s m = a) :
    Low t.bytes (M.int t a) (X86.get E.sym s t.bytes (.mem m)) := by
  simp only [X86.get, he]
  rw [rd_word M s.m a _ (t8 t) (h.obj ha), ← int_word]
  exact (Low.of_eq _ _ (t8 t)).zx

/-- A right operand of an operation done in memory. -/
structure MemRhs (C : Cfg) (E : Env) (n : Node) (t : CTy) (σ σ' : Store) (v : Int) : Prop where
  wf : WfNode E.Γ (ity t) n
  le : t.bytes ≤ n.ty.size
  nn : NoNull n
  stat : Stat E.dom C.opt n
  val : StoreOk E.Γ σ → neval 0 n σ = .ok (v, σ')
  sok : StoreOk E.Γ σ → StoreOk E.Γ σ'

/-- codegen.c:2234-2263. -/
theorem memopArith_does (S : Setup C P E Pg M O) {l : LV} {T : OTy} {t : CTy} (hl : LOk C P E l T) (ins : Alu) (rhs : Node)
    {σ σ1 σ2 : Store} {s : St} {a : Word} {v w : Int} (c : Nat) (h : Here E M σ s) (hf : l.Fine P M E σ) (he : l.eval P M σ = .ok (a, σ1))
    (ha : E.Apart a t.bytes) (hr : MemRhs C E rhs t σ1 σ2 v)
    (hop : ∀ p q, Low t.bytes (M.int t a) p → Low t.bytes v q → Low t.bytes w (aluOp ins p q))
    (hK : (memopArithA C P E.loc O.at_ E.stk ins t (buildL C P l) rhs c).1.st ≤ E.K) :
    Does (withObj E t a) Pg (memopArithA C P E.loc O.at_ E.stk ins t (buildL C P l) rhs c).1 s fun s' =>
      ∃ y, Wrote E M σ2 a t.bytes y s' ∧ Low t.bytes w y := by
  have h8 := t8 t
  have h0r : InRange (cty (ity t)) 0 := by rw [cty_ity]; cases t <;> decide
  have h8c := (size_le rhs.ty).1
  -- its code
  have run : ∀ (σ0 : Store) (s0 : St) (c : Nat), Here E M σ0 s0 → σ0 = σ1 → (genExpr C.hs C.opt E.loc E.stk rhs c).1.st ≤ E.K →
      Does E Pg (genExpr C.hs C.opt E.loc E.stk rhs c).1 s0 fun s' => Here E M σ2 s' ∧ Low t.bytes v (s'.r .ax) := by
    intro σ0 s0 c h0 e0 hK
    subst e0
    have g : ExprOk E Pg C.opt (genExpr C.hs C.opt E.loc E.stk rhs) rhs :=
      gen_ok S.hok S.hu C.hs _ .expr _ (Nat.le_refl _) ⟨_, hr.wf⟩
    refine (g (ity t) 0 σ0 s0 _ σ2 c ⟨hr.wf, h0r, hr.stat, h0.sok, h0.bp, h0.rel, .inl hr.nn⟩ (hr.val h0.sok) hK).imp fun s' hE q =>
      ⟨h0.step hE hK (hr.sok h0.sok) q.1, ?_⟩
    exact q.2.1.low.mono hr.le h8c
  -- an instruction with a constant
  have imm : ∀ (u : Word), evalNode C.hs rhs = .ok u → ∀ (s0 : St) (m : MemOp) (c : Nat), Here E M σ1 s0 →
      (∀ s1 : St, (∀ r, r ≠ .dx → s1.r r = s0.r r) → ea E.sym s1 m = a) →
      Does (withObj E t a) Pg (inss (immTmpl (fun o => .alu ins t.bytes o (.mem m)) (limitImm u t.bytes)) c).1 s0 fun s' =>
        ∃ y, Wrote E M σ2 a t.bytes y s' ∧ Low t.bytes w y := by
    intro u hu' s0 m c h0 hea
    obtain ⟨rfl, rfl⟩ := const_val C.hs h0r hr.wf h0.sok hu' (hr.val h0.sok)
    obtain ⟨s2, x2, m2, r2⟩ := immTmpl_write (E := E) (fun o => .alu ins t.bytes o (.mem m)) (limitImm (BitVec.ofInt 64 v) t.bytes) s0
      (wr s0.m a t.bytes (aluOp ins (X86.get E.sym s0 t.bytes (.mem m)) (zx t.bytes (limitImm (BitVec.ofInt 64 v) t.bytes)))) fun s1 o hm hr ho => by
        refine ⟨_, exec_alu_mem _ _ _ _ _, ?_, fun r _ => rfl⟩
        simp only
        rw [ho _ h8]
        simp only [X86.get]
        rw [hea s1 hr, hea s0 fun _ _ => rfl, hm]
    have x2 : execs (withObj E t a).sym _ s0 = some s2 := x2
    have m2' := m2
    rw [wr_zx h8] at m2'
    refine does_inss _ s0 s2 _ x2 (eff_wr t a _ 0 0 s0 s2 m2 (r2 .bp nbp) (r2 .sp nsp) fun i _ _ => r2 _ (ntmp i)) ?_ c
    refine ⟨_, wrote h8 ha h0 _ (r2 .bp nbp) m2', hop _ _ (old_low h0 t a ha m (hea s0 fun _ _ => rfl)) (limitImm_low _ _ h8).zx⟩
  have low : ∀ (s3 : St) (m : MemOp), Here E M σ2 s3 → Low t.bytes v (s3.r .ax) → ea E.sym s3 m = a →
      ∃ y f, exec E.sym (.alu ins t.bytes (.reg .ax) (.mem m)) s3 = some { s3 with m := wr s3.m a t.bytes (zx t.bytes y), f := f } ∧ Low t.bytes w y := by
    intro s3 m h3 hq hea
    refine ⟨aluOp ins (X86.get E.sym s3 t.bytes (.mem m)) (X86.get E.sym s3 t.bytes (.reg .ax)), none, ?_, hop _ _ (old_low h3 t a ha m hea) hq.zx⟩
    rw [exec_alu_mem, hea, ← wr_zx h8]
  have atObj : ∀ m, memopA C P E.loc O.at_ (buildL C P l) = some m → σ1 = σ ∧ ∀ s1 : St, s1.r .bp = E.bp → ea E.sym s1 m = a := by
    intro m hm
    have hm' : evalMemop C P O.at_ false (buildL C P l) = some m := by
      rw [← (buildL_isPlace (C := C) S.hC l _ hl.ty).memopA]; exact hm
    obtain ⟨x, o, rfl, hx⟩ := evalMemop_some hm'
    obtain ⟨e1, e2⟩ := place_at S.hC l _ hl.ty hl.wf hl.conv hx (S.sok h) hf he
    exact ⟨e2, fun s1 hb => by rw [ea_obj S hb, e1]⟩
  unfold memopArithA at hK ⊢
  cases hev : evalNode C.hs rhs with
  | ok u =>
    rw [hev] at hK
    cases hm : memopA C P E.loc O.at_ (buildL C P l) with
    | some m =>
      obtain ⟨e, hea⟩ := atObj m hm
      dsimp only
      exact imm u hev s m c (e ▸ h) fun s1 hr1 => hea s1 ((hr1 .bp (by simp)).trans h.bp)
    | none =>
      rw [hm] at hK
      dsimp only at hK ⊢
      refine does_seq _ _ c s _ _ (withObj_does t a (addr_gives S hl σ s σ1 a c h hf he (seq_st1 hK))) fun s1 _ q1 => ?_
      exact imm u hev s1 _ _ q1.1 fun s2 hr2 => by rw [ea_off, hr2 .ax (by simp), q1.2]; simp
  | _ =>
    rw [hev] at hK
    cases hm : memopA C P E.loc O.at_ (buildL C P l) with
    | some m =>
      rw [hm] at hK
      obtain ⟨e, hea⟩ := atObj m hm
      dsimp only at hK ⊢
      refine does_seq _ _ c s _ _ (withObj_does t a (run σ s c h e.symm (seq_st1 hK))) fun s1 _ q1 => ?_
      obtain ⟨y, f, x1, hy⟩ := low s1 m q1.1 q1.2 (hea s1 q1.1.bp)
      have x1' : execs (withObj E t a).sym [.alu ins t.bytes (.reg .ax) (.mem m)] s1 = some { s1 with m := wr s1.m a t.bytes (zx t.bytes y), f := f } := by
        show execs E.sym _ _ = _
        simp only [execs, x1, Option.bind_some]
      exact does_inss _ s1 _ _ x1' (eff_wr t a _ 0 0 s1 _ rfl rfl rfl fun _ _ _ => rfl) ⟨y, wrote h8 ha q1.1 y rfl rfl, hy⟩ _
    | none =>
      rw [hm] at hK
      dsimp only at hK ⊢
      have hK' := seq_st_le hK
      refine does_seq _ _ c s _ _ (withObj_does t a (addr_gives S hl σ s σ1 a c h hf he hK'.1)) fun s1 _ q1 => ?_
      exact tail_does (σ2 := σ2) S t a ha .ax _ (fun g => .alu ins t.bytes (.reg .ax) (.mem (.off g 0))) _
        (fun x => Low t.bytes v x) (fun y _ => Low t.bytes w y) q1.1 q1.2 hK'.2
        (fun s2 h2' _ => run σ1 s2 _ h2' rfl (tmp_st_le hK'.2))
        (fun s3 i h3 hq hi => low s3 _ h3 hq (by rw [ea_off, hi]; simp))

/-- codegen.c:2234-2292. -/
theorem opVoid_does (S : Setup C P E Pg M O) {l : LV} {t : CTy} (hl : LOk C P E l (.int t)) (k : AKind) (r : Node)
    {σ σ1 σ2 : Store} {s : St} {a : Word} {v w : Int} (c : Nat) (h : Here E M σ s) (hf : l.Fine P M E σ) (he : l.eval P M σ = .ok (a, σ1))
    (ha : E.Apart a t.bytes) (hv : InRange t (M.int t a)) (hr : Rhs C E r σ1 σ2 v) (h2 : nbinop k (ity t) r.ty (M.int t a) v = .ok w)
    (hK : (genOpVoid C P E.loc O.at_ E.stk k t (buildL C P l) r c).1.st ≤ E.K) :
    Does (withObj E t a) Pg (genOpVoid C P E.loc O.at_ E.stk k t (buildL C P l) r c).1 s fun s' =>
      ∃ y, Wrote E M σ2 a t.bytes y s' ∧ Low t.bytes (conv t w) y := by
  have plain : (genOp C P E.loc O.at_ E.stk k t (buildL C P l) r c).1.st ≤ E.K →
      Does (withObj E t a) Pg (genOp C P E.loc O.at_ E.stk k t (buildL C P l) r c).1 s fun s' => ∃ y, Wrote E M σ2 a t.bytes y s' ∧ Low t.bytes (conv t w) y :=
    fun hK => (op_does S hl k r c h hf he ha hv hr h2 hK).imp fun s' _ q => ⟨_, q.2.1, by have := q.2.2.low; rwa [← bytes_size] at this⟩
  unfold genOpVoid at hK ⊢
  cases k with
  | sh q => exact plain hK
  | ar op =>
    dsimp only at hK ⊢
    cases hal0 : (if op = .mul then none else aluOf op) with
    | none => rw [hal0] at hK; exact plain hK
    | some ins =>
      rw [hal0] at hK
      dsimp only at hK ⊢
      by_cases hc : (C.opt && decide (t ≠ .bool)) = true
      · rw [if_pos hc] at hK ⊢
        simp only [Bool.and_eq_true, decide_eq_true_eq] at hc
        obtain ⟨ho, hb⟩ := hc
        have hal : aluOf op = some ins := by
          split at hal0
          · cases hal0
          · exact hal0
        have h8 := t8 t
        have hwt := ity_wf t
        have hcm := commonTy_ok (ity t) r.ty hwt (wf_ty _ hr.wf)
        have hle : t.bytes ≤ (commonTy (ity t) r.ty).size := by
          have key : ∀ a ∈ allTys, ∀ b ∈ allTys, a.size ≤ (commonTy a b).size := by decide +kernel
          rw [bytes_size]
          exact key (ity t) (mem_allTys _ hwt) r.ty (mem_allTys r.ty (wf_ty _ hr.wf))
        have h8c := (size_le (commonTy (ity t) r.ty)).1
        have hcb := cty_ne_bool _ hcm.2.2
        have hwid : (cty (commonTy (ity t) r.ty)).width = 8 * (commonTy (ity t) r.ty).size := width_size _ hcm.2.2
        have hwt' : 8 * t.bytes = t.width := by cases t <;> first | rfl | exact absurd rfl hb
        -- the right operand
        have hax : InRange (cty (ity t)) (M.int t a) := by rw [cty_ity]; exact hv
        have hnull : Impl E.Γ (ity t) (M.int t a) (.null (ity t)) (ity t) (fun σ' => .ok (M.int t a, σ')) := ⟨⟨hwt, rfl⟩, rfl, fun _ _ => Or.inr rfl⟩
        have hri : Impl E.Γ (ity t) (M.int t a) r r.ty (neval (M.int t a) r) := ⟨wf_nt E.Γ ty_int (ity t) r hr.nn hr.wf, rfl, fun _ _ => Or.inr rfl⟩
        have hu := (usualConv_impl C.hs C.opt hax hnull hri).2
        have hnn : NoNull (usualConv C.hs C.opt (.null (ity t)) r).2 := by
          rw [usual_eq]; exact noNull_newCast C.hs C.opt _ _ (noNull_intPromo C.hs C.opt _ hr.nn)
        have hst := (usual_stat C.hs C.opt E.dom (.null (ity t)) r trivial hr.stat).2
        refine memopArith_does S hl ins _ c h hf he ha
          ⟨hu.wf, by rw [hu.ty]; exact hle, hnn, hst, fun hσ => ?_, hr.sok⟩
          (v := conv (cty (commonTy (ity t) r.ty)) v) ?_ hK
        · rw [neval_acc 0 (M.int t a) _ σ1 hnn]
          refine (hu.ref σ1 hσ).ok ?_
          simp only [convRes]
          rw [neval_acc (M.int t a) 0 r σ1 hr.nn, hr.val]
          simp only [ok_bind]
        · intro p q hp' hq
          have h3 : arith (cty (commonTy (ity t) r.ty)) op (conv (cty (commonTy (ity t) r.ty)) (M.int t a)) (conv (cty (commonTy (ity t) r.ty)) v) = .ok w := by
            simp only [nbinop, binop] at h2
            rw [hcm.2.1]; exact h2
          exact (alu_low op ins (commonTy (ity t) r.ty) t.bytes _ _ w p q hcm.2.2 hle hal h3
            (hp'.conv _ hcb (by omega)) hq).conv _ hb (by omega)
      · rw [if_neg hc] at hK ⊢
        exact plain hK

/-! Labels. -/

theorem opN_fresh (n : Node) (t : CTy) (l : ANode) : Fresh (genOpN C P E.loc O.at_ E.stk n t l) :=
  fresh_seq (genA_fresh _ _ _ _ _ _ _ _) (fresh_tmp (fresh_seq (fresh_inss _) (gen_fresh _ _ _ _ _ _ _)))
theorem postN_fresh (t : CTy) (l : ANode) (n n' : Node) : Fresh (genPostN C P E.loc O.at_ E.stk t l n n') := by
  unfold genPostN
  split
  · exact fresh_seq (opN_fresh _ _ _) (gen_fresh _ _ _ _ _ _ _)
  · exact fresh_seq (genA_fresh _ _ _ _ _ _ _ _) (fresh_seq (fresh_inss _) (fresh_tmp (fresh_tmp (gen_fresh _ _ _ _ _ _ _))))
theorem memopArith_fresh (ins : Alu) (t : CTy) (l : ANode) (r : Node) : Fresh (memopArithA C P E.loc O.at_ E.stk ins t l r) := by
  unfold memopArithA
  cases evalNode C.hs r <;> cases memopA C P E.loc O.at_ l <;> dsimp only <;> first
    | exact fresh_inss _
    | exact fresh_seq (genA_fresh _ _ _ _ _ _ _ _) (fresh_inss _)
    | exact fresh_seq (gen_fresh _ _ _ _ _ _ _) (fresh_inss _)
    | exact fresh_seq (genA_fresh _ _ _ _ _ _ _ _) (fresh_tmp (gen_fresh _ _ _ _ _ _ _))

end
end Slimcc.AGen
