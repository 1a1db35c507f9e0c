import Verif.Lemmas.FnCall
/-! A call statement in the body of a function. -/
set_option autoImplicit false
namespace Slimcc
open Slimcc.Spec Slimcc.Spec.CTy Slimcc.Ty Slimcc.X86 Slimcc.Gen Slimcc.Props

theorem push_slot {E : Env} (q : Nat) (s : St) (hbp : s.r .bp = E.bp) :
    ∃ s1, execs E.sym (pushIns E.stk true .ax (.stk q)) s = some s1 ∧ s1.r = s.r ∧ (∀ a, ¬ InBlk (E.slot q) 8 a → s1.m a = s.m a) ∧ Saved E (.stk q) 8 (s.r .ax) s1 := by
  have hea := ea_slot (E := E) q s hbp
  refine ⟨_, rfl, rfl, fun a ha => ?_, ?_⟩
  · dsimp only
    rw [hea]
    exact wr_other _ _ _ _ _ ha
  · unfold Saved
    dsimp only
    rw [hea]
    show rd (wr s.m (E.slot q) 8 _) _ 8 = _
    rw [rd_wr_same _ _ _ _ (by omega)]
    simp only [X86.get]
    exact zx_zx 8 _

section
variable {hs : HostShift} {opt : Bool} {P : Prog} {I : Image} {f : FnDef} {fr : Frame} {k : Nat} {S : Word} {lo hi : Nat}

/-- The state after a statement. -/
structure StmtDone (P : Prog) (I : Image) (f : FnDef) (fr : Frame) (k j : Nat) (S : Word) (lo : Nat) (σ : Store) (s s' : St) : Prop where
  sp : s'.r .sp = bodySp fr k S
  bp : s'.r .bp = S - 16#64
  sok : StoreOk P.Γ σ
  rel : Rel (actEnv P I f fr k S) σ s'.m
  mem : ∀ a, (actEnv P I f fr j S).Outside j a → ¬ (lo ≤ a.toNat ∧ a.toNat < (bodySp fr k S).toNat) →
    ¬ (S.toNat - 16 - fr.stk ≤ a.toNat ∧ a.toNat < S.toNat - 16) → s'.m a = s.m a

/-- The value that is assigned. -/
def callRhs (hs : HostShift) (opt : Bool) (P : Prog) (f : FnDef) (fr : Frame) (c : CallS) (x : Nat) : G :=
  callCode hs opt P.Γ (fnLoc P.Γ P.glob f fr) fr.stk fr.temp c (some (ity (Prog.rets P c.fn))) ;;
    inss (if opt && decide (ity (Prog.rets P c.fn) = ity (P.Γ x)) then [] else castIns (ity (Prog.rets P c.fn)) (ity (P.Γ x)))

theorem callRhs_depth (c : CallS) (x lab : Nat) : slot (callRhs hs opt P f fr c x lab).1.gp (callRhs hs opt P f fr c x lab).1.st =
    .stk (funcall hs opt P.Γ (fnLoc P.Γ P.glob f fr) fr.stk (siteOf c) (fr.temp c.site) (some (ity (Prog.rets P c.fn))) lab).1.before.st ∧
    (callRhs hs opt P f fr c x lab).1.st = (funcall hs opt P.Γ (fnLoc P.Γ P.glob f fr) fr.stk (siteOf c) (fr.temp c.site) (some (ity (Prog.rets P c.fn))) lab).1.before.st := by
  have h1 : (callRhs hs opt P f fr c x lab).1.st = (funcall hs opt P.Γ (fnLoc P.Γ P.glob f fr) fr.stk (siteOf c) (fr.temp c.site) (some (ity (Prog.rets P c.fn))) lab).1.before.st := Nat.max_zero _
  have h2 : (callRhs hs opt P f fr c x lab).1.gp = GP_SLOTS := Nat.max_zero _
  refine ⟨?_, h1⟩
  unfold slot
  rw [h2, h1, if_neg (by omega)]

section
variable (A : ActOk hs opt P I f fr k S lo hi) (hal : S.toNat % 16 = 0) {D n : Nat} (hn : lo + (n + 1) * D ≤ S.toNat) (hV : Served P I lo hi D n)
    {g : Nat} (hu : UniqueLabels (I.code g)) (c : CallS) (hR : CallRules P c) (hT : TempsOk hs opt P f fr c)
    (hD : 16 + frameSize fr k + argBytes 0 c.args.length ≤ D)
    (hok : ∀ a ∈ c.args, a.e.Wf ∧ (∀ x ∈ a.e.vars, (actEnv P I f fr k S).dom x) ∧ (opt = true → a.e.Sequenced))
    {σ σ1 σ2 : Store} {vs : List Int} {v : Option Int} {s : St} (hσ : StoreOk P.Γ σ) (hbp : s.r .bp = S - 16#64) (hsp : s.r .sp = bodySp fr k S)
    (he : cevals P.Γ c.args σ = .ok (vs, σ1)) (hO : Gives P n c.fn vs σ1 v σ2) (hm : Rel (actEnv P I f fr k S) σ s.m)
include A hal hn hV hu hR hT hD hok hσ hbp hsp he hO hm

theorem callRhs_run (lab pc : Nat) {x : Nat} {w : Int} (hv : v = some w) (hx : P.Γ x ≠ .bool)
    (hc : CodeAt (I.code g) pc (callRhs hs opt P f fr c x lab).1.code) (hst : (callRhs hs opt P f fr c x lab).1.st ≤ k)
    (hlen : ∀ p h, (I.code g)[p]? = some (.call h) → p + 1 < (I.code g).length) :
    ∃ s', GRuns I g (pc, s) (pc + (callRhs hs opt P f fr c x lab).1.code.length, s') ∧
      StmtDone P I f fr k (callRhs hs opt P f fr c x lab).1.st S lo σ2 s s' ∧ Low (ity (P.Γ x)).size (conv (P.Γ x) w) (s'.r .ax) := by
  rw [(callRhs_depth c x lab).2] at hst ⊢
  unfold callRhs at hc ⊢
  simp only [codeAt_seq, len_seq] at hc ⊢
  obtain ⟨c1, c2⟩ := hc
  obtain ⟨h, s1, hf, r1, Q⟩ := call_mid A hal hn hV hu c hR hT hD hok hσ hbp hsp he hO (some (ity (Prog.rets P c.fn))) lab pc rfl hst hm c1 hlen
  have hrt : Prog.rets P c.fn = h.rty := by unfold Prog.rets; rw [hf]
  obtain ⟨q1, q2⟩ := Q.result w hv
  obtain ⟨s2, x2, p1, p2, p3, p4⟩ := C64_after (hs := hs) (opt := opt) (E := actEnv P I f fr k S) (siteOf c) (fr.temp c.site) h.rty w (bodySp fr k S) s1 lab Q.sp q1
    (by have := inReg_low q2; exact this)
  have hcode : (callCode hs opt P.Γ (fnLoc P.Γ P.glob f fr) fr.stk fr.temp c (some (ity (Prog.rets P c.fn))) lab).1.code =
      (funcall hs opt P.Γ (fnLoc P.Γ P.glob f fr) fr.stk (siteOf c) (fr.temp c.site) (some (ity (Prog.rets P c.fn))) lab).1.before.code ++
        .call c.fn :: (funcall hs opt P.Γ (fnLoc P.Γ P.glob f fr) fr.stk (siteOf c) (fr.temp c.site) (some (ity (Prog.rets P c.fn))) lab).1.after.map .ins := rfl
  rw [hcode] at c1 c2 ⊢
  rw [codeAt_append] at c1
  obtain ⟨-, c1⟩ := c1
  obtain ⟨-, c1⟩ := (codeAt_cons _ _ _ _).1 c1
  rw [hrt] at c1 c2 r1 Q ⊢
  have r2 : Runs I.sym (I.code g) (_, s1) (_ + (funcall hs opt P.Γ (fnLoc P.Γ P.glob f fr) fr.stk (siteOf c) (fr.temp c.site) (some (ity h.rty)) lab).1.after.length, s2) :=
    runs_execs (I.code g) I.sym _ s1 s2 x2 _ c1
  have hcast : ∃ s3, execs I.sym (if opt && decide (ity h.rty = ity (P.Γ x)) then [] else castIns (ity h.rty) (ity (P.Γ x))) s2 = some s3 ∧
      s3.m = s2.m ∧ (∀ q, ¬ Scratch q → s3.r q = s2.r q) ∧ Low (ity (P.Γ x)).size (conv (P.Γ x) w) (s3.r .ax) := by
    have hr := (reps_inReg h.rty w _).2 p4
    split
    · rename_i he
      have he : ity h.rty = ity (P.Γ x) := by simpa using (Bool.and_eq_true_iff.1 he).2
      have he' : h.rty = P.Γ x := by rw [← cty_ity h.rty, he, cty_ity]
      refine ⟨s2, rfl, rfl, fun _ _ => rfl, ?_⟩
      rw [he'] at hr q1
      rw [conv_id _ _ q1]
      exact hr.low
    · have hbk : (ity (P.Γ x)).kind ≠ .bool := fun h => hx (by have := (cty_bool _).2 h; rwa [cty_ity] at this)
      obtain ⟨s3, a, b, d, e⟩ := cast_calc (E := actEnv P I f fr k S) (ity h.rty) (ity (P.Γ x)) w s2 (ity_wf _) (ity_wf _) hbk (by rw [cty_ity]; exact q1) hr
      rw [cty_ity] at e
      exact ⟨s3, a, b, d, e.low⟩
  obtain ⟨s3, x3, m3, k3, l3⟩ := hcast
  have r3 : Runs I.sym (I.code g) _ _ := runs_execs (I.code g) I.sym _ s2 s3 x3 _ c2
  generalize (if opt && decide (ity h.rty = ity (P.Γ x)) then [] else castIns (ity h.rty) (ity (P.Γ x))) = ct at r3 ⊢
  generalize (funcall hs opt P.Γ (fnLoc P.Γ P.glob f fr) fr.stk (siteOf c) (fr.temp c.site) (some (ity h.rty)) lab).1 = p at *
  refine ⟨s3, ?_, ⟨?_, ?_, Q.sok, ?_, fun a h1 h2 h3 => ?_⟩, l3⟩
  · refine r1.trans ((GRuns.of r2).trans ?_)
    have := GRuns.of r3
    simp only [List.length_append, List.length_cons, List.length_map, inss, lines, ← Nat.add_assoc] at this ⊢
    rw [show pc + p.before.code.length + p.after.length + 1 = pc + p.before.code.length + 1 + p.after.length by omega] at this
    rw [show pc + p.before.code.length + p.after.length + 1 + ct.length = pc + p.before.code.length + 1 + p.after.length + ct.length by omega]
    exact this
  · rw [k3 _ (by simp [Scratch]), p1]
  · rw [k3 _ (by simp [Scratch]), p2, Q.bp]
  · rw [m3, p3]; exact Q.rel
  · rw [m3, p3]; exact Q.mem a h1 h2 h3

theorem call_run (hdst : ∀ x, c.dst = some x → (actEnv P I f fr k S).dom x) {σ3 : Store} (hres : c.result P.Γ v σ2 = some σ3) (lab pc : Nat)
    (hc : CodeAt (I.code g) pc (callStmt hs opt P.Γ (fnLoc P.Γ P.glob f fr) fr.stk (Prog.rets P) fr.temp c lab).1.code)
    (hst : (callStmt hs opt P.Γ (fnLoc P.Γ P.glob f fr) fr.stk (Prog.rets P) fr.temp c lab).1.st ≤ k)
    (hlen : ∀ p h, (I.code g)[p]? = some (.call h) → p + 1 < (I.code g).length) :
    ∃ s', GRuns I g (pc, s) (pc + (callStmt hs opt P.Γ (fnLoc P.Γ P.glob f fr) fr.stk (Prog.rets P) fr.temp c lab).1.code.length, s') ∧
      StmtDone P I f fr k k S lo σ3 s s' := by
  unfold callStmt at hc hst ⊢
  unfold CallS.result at hres
  have hbn := bodySp_nat A
  have fs := frameSize_ge fr k
  cases hd : c.dst with
  | none =>
    rw [hd] at hc hst hres
    dsimp only at hc hst hres ⊢
    injection hres with hres
    subst hres
    obtain ⟨h, s1, hf, r1, Q⟩ := call_mid A hal hn hV hu c hR hT hD hok hσ hbp hsp he hO none lab pc rfl hst hm hc hlen
    obtain ⟨s2, x2, p1, p2, p3⟩ := C64_after_void (hs := hs) (opt := opt) (E := actEnv P I f fr k S) (siteOf c) (fr.temp c.site) (bodySp fr k S) s1 lab Q.sp
    have hcode : (callCode hs opt P.Γ (fnLoc P.Γ P.glob f fr) fr.stk fr.temp c none lab).1.code =
        (funcall hs opt P.Γ (fnLoc P.Γ P.glob f fr) fr.stk (siteOf c) (fr.temp c.site) none lab).1.before.code ++
          .call c.fn :: (funcall hs opt P.Γ (fnLoc P.Γ P.glob f fr) fr.stk (siteOf c) (fr.temp c.site) none lab).1.after.map .ins := rfl
    rw [hcode] at hc ⊢
    rw [codeAt_append] at hc
    obtain ⟨-, c1⟩ := hc
    obtain ⟨-, c1⟩ := (codeAt_cons _ _ _ _).1 c1
    have r2 : Runs I.sym (I.code g) (_, s1) (_ + (funcall hs opt P.Γ (fnLoc P.Γ P.glob f fr) fr.stk (siteOf c) (fr.temp c.site) none lab).1.after.length, s2) :=
      runs_execs (I.code g) I.sym _ s1 s2 x2 _ c1
    refine ⟨s2, ?_, p1, (p2 _ (by simp)).trans Q.bp, Q.sok, by rw [p3]; exact Q.rel, fun a h1 h2 h3 => ?_⟩
    · refine r1.trans ?_
      have := GRuns.of r2
      simp only [List.length_append, List.length_cons, List.length_map] at this ⊢
      generalize (funcall hs opt P.Γ (fnLoc P.Γ P.glob f fr) fr.stk (siteOf c) (fr.temp c.site) none lab).1 = p at this ⊢
      rw [show pc + (p.before.code.length + (p.after.length + 1)) = pc + p.before.code.length + 1 + p.after.length by omega]
      exact this
    · rw [p3]
      exact Q.mem a ⟨h1.1, fun i hi => h1.2 i (by have : (funcall hs opt P.Γ (fnLoc P.Γ P.glob f fr) fr.stk (siteOf c) (fr.temp c.site) none lab).1.before.st ≤ k := hst; omega)⟩ h2 h3
  | some x =>
    rw [hd] at hc hst hres
    dsimp only at hc hst hres ⊢
    cases v with
    | none => cases hres
    | some w =>
    injection hres with hres
    subst hres
    have hx := hdst x hd
    have hb := hR.dst x hd
    have hbn' : (bodySp fr k S).toNat + 16 + frameSize fr k = S.toNat := hbn
    have hE := act_ok A
    change CodeAt _ _ (setVar (fnLoc P.Γ P.glob f fr) fr.stk opt (ity (P.Γ x)) x (callRhs hs opt P f fr c x) lab).1.code at hc
    change (setVar (fnLoc P.Γ P.glob f fr) fr.stk opt (ity (P.Γ x)) x (callRhs hs opt P f fr c x) lab).1.st ≤ k at hst
    change ∃ s', GRuns I g (pc, s) (pc + (setVar (fnLoc P.Γ P.glob f fr) fr.stk opt (ity (P.Γ x)) x (callRhs hs opt P f fr c x) lab).1.code.length, s') ∧ _
    unfold setVar at hc hst ⊢
    by_cases ho : opt = true
    · rw [if_pos ho] at hc hst ⊢
      simp only [codeAt_seq, len_seq] at hc ⊢
      rw [st_seq] at hst
      obtain ⟨c1, c2⟩ := hc
      obtain ⟨s1, r1, Q, l1⟩ := callRhs_run A hal hn hV hu c hR hT hD hok hσ hbp hsp he hO hm lab pc rfl hb c1 hst.1 hlen
      obtain ⟨s2, x2, e2, q2, _⟩ := store_run hE x (conv (P.Γ x) w) ((actEnv P I f fr k S).loc x) s1 hx Q.rel (ea_loc hE hx s1 Q.bp) l1
      simp only [inss, lines, List.map_cons, List.map_nil, codeAt_one, List.length_map] at c2
      have r2 : Runs I.sym (I.code g) (pc + (callRhs hs opt P f fr c x lab).1.code.length, s1) (pc + (callRhs hs opt P f fr c x lab).1.code.length + 1, s2) :=
        Runs.one (by unfold step; simp only [c2]; exact (congrArg (Option.map _) x2))
      refine ⟨s2, r1.trans (GRuns.of r2), e2.sp.trans Q.sp, e2.bp.trans Q.bp, StoreOk.set Q.sok _ _ (conv_range _ _), q2, fun a h1 h2 h3 => ?_⟩
      rw [e2.mem a h1.1 fun i hi => absurd hi (Nat.not_lt_zero _)]
      exact Q.mem a ⟨h1.1, fun i hi => h1.2 i (Nat.lt_of_lt_of_le hi hst.1)⟩ h2 h3
    · rw [if_neg ho] at hc hst ⊢
      have hdep := callRhs_depth (hs := hs) (opt := opt) (P := P) (f := f) (fr := fr) c x lab
      have hdep1 : slot (callRhs hs opt P f fr c x lab).1.gp (callRhs hs opt P f fr c x lab).1.st = .stk (callRhs hs opt P f fr c x lab).1.st := by rw [hdep.1, hdep.2]
      have hd' := fun lab pc => callRhs_run A hal hn hV hu c hR hT hD hok hσ (s := s) hbp hsp he hO hm lab pc (x := x) rfl hb
      have hcR := fun (s : St) (hbp : s.r .bp = S - 16#64) (hsp : s.r .sp = bodySp fr k S) (hm : Rel (actEnv P I f fr k S) σ s.m) =>
        callRhs_run A hal hn hV hu c hR hT hD hok hσ hbp hsp he hO hm lab
      clear hd'
      generalize hB : callRhs hs opt P f fr c x = B at *
      simp only [codeAt_seq, len_seq] at hc ⊢
      obtain ⟨c1, c2⟩ := hc
      rw [st_seq] at hst
      simp only [inss, lines, List.map_cons, List.map_nil, codeAt_one, List.length_singleton] at c1 c2 ⊢
      have hKt : (tmp (pushIns fr.stk true .ax) B (fun l => popIn fr.stk true l ++ [.mov (ity (P.Γ x)).size (.reg .ax) (.mem (.ind (popReg l)))]) lab).1.st ≤ k := hst.2
      have hlt : (B lab).1.st < k := by
        unfold tmp at hKt
        dsimp only at hKt
        rw [hdep1] at hKt
        dsimp only at hKt
        omega
      have hcode : (tmp (pushIns fr.stk true .ax) B (fun l => popIn fr.stk true l ++ [.mov (ity (P.Γ x)).size (.reg .ax) (.mem (.ind (popReg l)))]) lab).1.code =
        (pushIns fr.stk true .ax (slot (B lab).1.gp (B lab).1.st)).map .ins ++ (B lab).1.code ++
          (popIn fr.stk true (slot (B lab).1.gp (B lab).1.st) ++ [Ins.mov (ity (P.Γ x)).size (.reg .ax) (.mem (.ind (popReg (slot (B lab).1.gp (B lab).1.st))))]).map Line.ins := rfl
      have c2' : CodeAt (I.code g) (pc + 1) (tmp (pushIns fr.stk true .ax) B (fun l => popIn fr.stk true l ++ [.mov (ity (P.Γ x)).size (.reg .ax) (.mem (.ind (popReg l)))]) lab).1.code := c2
      change ∃ s', GRuns I g (pc, s) (pc + (1 + (tmp (pushIns fr.stk true .ax) B (fun l => popIn fr.stk true l ++ [.mov (ity (P.Γ x)).size (.reg .ax) (.mem (.ind (popReg l)))]) lab).1.code.length), s') ∧ _
      rw [hcode, hdep1] at c2' ⊢
      rw [codeAt_append, codeAt_append] at c2'
      obtain ⟨⟨c2, c3⟩, c4⟩ := c2'
      simp only [List.length_append, List.length_map] at c3 c4 ⊢
      -- the address
      have r1 : Runs I.sym (I.code g) (pc, s) (pc + 1, s.setR .ax (ea (actEnv P I f fr k S).sym s ((actEnv P I f fr k S).loc x))) := Runs.one (by unfold step; simp only [c1]; rfl)
      rw [ea_loc hE hx s hbp] at r1
      have hs1 : (s.setR .ax ((actEnv P I f fr k S).addr x)).r .ax = (actEnv P I f fr k S).addr x := setR_same _ _ _
      have hs1b : (s.setR .ax ((actEnv P I f fr k S).addr x)).r .bp = S - 16#64 := (setR_other _ _ _ _ (by simp)).trans hbp
      have hs1s : (s.setR .ax ((actEnv P I f fr k S).addr x)).r .sp = bodySp fr k S := (setR_other _ _ _ _ (by simp)).trans hsp
      have hs1m : (s.setR .ax ((actEnv P I f fr k S).addr x)).m = s.m := rfl
      generalize s.setR .ax ((actEnv P I f fr k S).addr x) = s1 at r1 hs1 hs1b hs1s hs1m
      obtain ⟨s2, x2, p1, p2, p3⟩ := push_slot (E := actEnv P I f fr k S) (B lab).1.st s1 hs1b
      have r2 : Runs I.sym (I.code g) _ _ := runs_execs (I.code g) I.sym _ s1 s2 x2 _ c2
      have hm2 : Rel (actEnv P I f fr k S) σ s2.m := by
        refine rel_congr hm fun a y hy ha => ?_
        rw [p2 a (fun hc => hE.slots y _ hy hlt a ⟨ha, hc⟩), hs1m]
      obtain ⟨s3, r3, Q, l3⟩ := hcR s2 (by rw [p1]; exact hs1b) (by rw [p1]; exact hs1s) hm2 _ (x := x) rfl hb (by rw [hB]; exact c3) (by rw [hB]; omega) hlen
      rw [hB] at r3 Q
      rw [hs1] at p3
      have p4 : Saved (actEnv P I f fr k S) (.stk (B lab).1.st) 8 ((actEnv P I f fr k S).addr x) s3 := by
        have p3 : rd s2.m ((actEnv P I f fr k S).slot (B lab).1.st) 8 = _ := p3
        show rd s3.m ((actEnv P I f fr k S).slot (B lab).1.st) 8 = _
        rw [← p3]
        refine rd_congr _ _ _ _ (by omega) fun a ha => ?_
        have h1 := (blk_slot A hlt a).1 ha
        refine Q.mem a ⟨fun y hy hc => hE.slots y _ hy hlt a ⟨hc, ha⟩, fun i hi hc => slots_disj (actEnv P I f fr k S) hE i (B lab).1.st (by show i < k; omega) hlt (by omega) a ⟨hc, ha⟩⟩ (by omega) (by omega)
      obtain ⟨s4, x4, r4, m4, o4⟩ := popIn_run (E := actEnv P I f fr k S) (.stk (B lab).1.st) true _ s3 Q.bp p4
      have hax : s4.r .ax = s3.r .ax := o4 .ax (by simp [popReg])
      obtain ⟨s5, x5, e5, q5, _⟩ := store_run hE x (conv (P.Γ x) w) (.ind (popReg (.stk (B lab).1.st))) s4 hx (by rw [m4]; exact Q.rel)
        (by simp only [ea, r4]; exact zx8 _) (by rw [hax]; exact l3)
      have r5 : Runs I.sym (I.code g) _ _ := runs_execs (I.code g) I.sym (popIn fr.stk true (.stk (B lab).1.st) ++ [.mov (ity (P.Γ x)).size (.reg .ax) (.mem (.ind (popReg (.stk (B lab).1.st))))]) s3 s5
        (by rw [execs_append]; erw [x4]; simp only [Option.bind_some, execs]; erw [x5]; rfl) _ c4
      refine ⟨s5, (GRuns.of r1).trans ((GRuns.of r2).trans (r3.trans ?_)), ?_, ?_, StoreOk.set Q.sok _ _ (conv_range _ _), q5, fun a h1 h2 h3 => ?_⟩
      · have := GRuns.of r5
        simp only [List.length_append, ← Nat.add_assoc] at this ⊢
        exact this
      · rw [e5.sp, o4 _ (by simp [popReg]), Q.sp]
      · rw [e5.bp, o4 _ (by simp [popReg]), Q.bp]
      · rw [e5.mem a h1.1 fun i hi => absurd hi (Nat.not_lt_zero _), m4, Q.mem a ⟨h1.1, fun i hi => h1.2 i (by omega)⟩ h2 h3, p2 a (h1.2 _ hlt), hs1m]

end
end
end Slimcc
