import Verif.Model.Atomic
import Verif.Lemmas.CEvalFrame
import Verif.Lemmas.StmtGen
import Verif.Lemmas.SwitchCode
/-! The parts of the code of an atomic operation between its accesses to shared memory. -/
set_option autoImplicit false
namespace Slimcc
open Slimcc.Spec Slimcc.Spec.CTy Slimcc.Ty Slimcc.X86 Slimcc.Gen

section
variable (hs : HostShift) (opt : Bool) (O Γ : Nat → CTy) (loc : Nat → MemOp) (stk : Nat)

/-- The code that loads a variable. -/
def loadVar (x : Nat) : List Ins :=
  if opt then [loadExt (ity (Γ x)) (loc x) .ax] else [.lea (loc x) .ax, loadExt (ity (Γ x)) (.ind .ax) .ax]

theorem var_code (x : Nat) : compileExpr hs opt Γ loc stk (.var x) = inss (loadVar opt Γ loc x) := by
  unfold compileExpr genExpr loadVar
  cases opt <;> rfl

/-- Up to the load of the object. -/
def rmwA (h : Nat → Nat) (g : Nat) (e : Expr) : G :=
  setVar loc stk opt (ity .ulong) (h 0) (inss [.lea (.sym g) .ax]) ;;
  compileVoid hs opt Γ loc stk (.assign (h 1) e) ;;
  inss [.lea (loc (h 2)) .ax] ;; inss [.mov 8 (.reg .ax) (.reg (.tmp 0))] ;;
  compileExpr hs opt Γ loc stk (.var (h 0))

/-- The load and the store to `old`. -/
def rmwL (t : ITy) : List Line := [.shared (loadExt t (.ind .ax) .ax), .ins (.mov t.size (.reg .ax) (.mem (.ind (.tmp 0))))]

/-- From the start of the loop to the exchange. -/
def rmwN (cont : Nat) (h : Nat → Nat) (g : Nat) (op : BinOp) : G :=
  setVar loc stk false (ity (O g)) (h 3) (compileExpr hs opt Γ loc stk (.cast (O g) (.bin op (.var (h 2)) (.var (h 1))))) ;;
  lines [.lab (.name cont)] ;;
  compileExpr hs opt Γ loc stk (.var (h 0)) ;; inss [.mov 8 (.reg .ax) (.reg (.tmp 1))] ;;
  inss [.lea (loc (h 2)) .ax] ;; inss [.mov 8 (.reg .ax) (.reg (.tmp 0))] ;;
  compileExpr hs opt Γ loc stk (.var (h 3)) ;;
  inss [.mov (ity (O g)).size (.reg .ax) (.reg .dx), .mov (ity (O g)).size (.mem (.ind (.tmp 0))) (.reg .ax)]

/-- From the exchange to the end of the loop. -/
def rmwC (t : ITy) (b brk : Nat) : List Line :=
  [.ins (.set .e .cx), .jeOver, .ins (.mov t.size (.reg .ax) (.mem (.ind (.tmp 0)))), .ins (.movx false 1 4 (.reg .cx) .ax)] ++
  ((if opt then [] else [.ins (.alu .xor 1 (.imm 1) (.reg .ax))]) ++
      [.ins (.test 1 (.reg .ax) (.reg .ax)), .jcc (if opt then .e else .ne) (.begin b), .lab (.name brk)])

/-- The code of an operation in parts. -/
theorem rmw_code (cont brk : Nat) (h : Nat → Nat) (post : Bool) (g : Nat) (op : BinOp) (e : Expr) (c : Nat) :
    (rmwCode hs opt O Γ loc stk cont brk h post g op e c).1.code =
      (rmwA hs opt Γ loc stk h g e c).1.code ++ (rmwL (ity (O g)) ++ ([.lab (.begin (rmwA hs opt Γ loc stk h g e c).2)] ++
      ((rmwN hs opt O Γ loc stk cont h g op ((rmwA hs opt Γ loc stk h g e c).2 + 1)).1.code ++
      ([.cmpxchg (ity (O g)).size .dx (.tmp 1)] ++ (rmwC opt (ity (O g)) (rmwA hs opt Γ loc stk h g e c).2 brk ++
      (loadVar opt Γ loc (h (if post then 2 else 3))).map .ins))))) := by
  unfold rmwCode rmwA rmwN rmwC rmwL casCode
  simp only [var_code]
  simp only [seq, withLabel, setVar, tmp, inss, lines, slot, GP_SLOTS, popIn, popReg, pushIns, rsz, if_true,
    show (0 < 6) = True from by simp, show (1 < 6) = True from by simp, Nat.max_self, Nat.zero_add, List.append_assoc, List.map_cons, List.map_nil, List.nil_append,
    List.cons_append, Bool.false_eq_true, if_false]
  cases opt <;> simp


theorem gp_seq (a b : G) (c K : Nat) : ((a ;; b) c).1.gp ≤ K ↔ (a c).1.gp ≤ K ∧ (b (a c).2).1.gp ≤ K := by
  show max _ _ ≤ K ↔ _
  exact Nat.max_le

theorem setVar_depth (v : Bool) (t : ITy) (x : Nat) (rhs : G) (c : Nat) :
    (rhs c).1.gp ≤ (setVar loc stk v t x rhs c).1.gp ∧ (rhs c).1.st ≤ (setVar loc stk v t x rhs c).1.st := by
  unfold setVar
  cases v
  · have := tmp_gp (pushIns stk true .ax) rhs (fun l => popIn stk true l ++ [.mov t.size (.reg .ax) (.mem (.ind (popReg l)))]) c
    exact ⟨Nat.le_trans this.1 (Nat.le_max_right _ _), Nat.le_trans this.2 (Nat.le_max_right _ _)⟩
  · exact ⟨Nat.le_max_left _ _, Nat.le_max_left _ _⟩

/-- The depths of the parts. -/
theorem rmw_depth (cont brk : Nat) (h : Nat → Nat) (post : Bool) (g : Nat) (op : BinOp) (e : Expr) (c : Nat) :
    2 ≤ (rmwCode hs opt O Γ loc stk cont brk h post g op e c).1.gp ∧
    (setVar loc stk opt (ity .ulong) (h 0) (inss [.lea (.sym g) .ax]) c).1.gp ≤ (rmwCode hs opt O Γ loc stk cont brk h post g op e c).1.gp ∧
    (setVar loc stk opt (ity .ulong) (h 0) (inss [.lea (.sym g) .ax]) c).1.st ≤ (rmwCode hs opt O Γ loc stk cont brk h post g op e c).1.st ∧
    (compileVoid hs opt Γ loc stk (.assign (h 1) e) (setVar loc stk opt (ity .ulong) (h 0) (inss [.lea (.sym g) .ax]) c).2).1.gp ≤
      (rmwCode hs opt O Γ loc stk cont brk h post g op e c).1.gp ∧
    (compileVoid hs opt Γ loc stk (.assign (h 1) e) (setVar loc stk opt (ity .ulong) (h 0) (inss [.lea (.sym g) .ax]) c).2).1.st ≤
      (rmwCode hs opt O Γ loc stk cont brk h post g op e c).1.st ∧
    (setVar loc stk false (ity (O g)) (h 3) (compileExpr hs opt Γ loc stk (.cast (O g) (.bin op (.var (h 2)) (.var (h 1)))))
      ((rmwA hs opt Γ loc stk h g e c).2 + 1)).1.gp ≤ (rmwCode hs opt O Γ loc stk cont brk h post g op e c).1.gp ∧
    (setVar loc stk false (ity (O g)) (h 3) (compileExpr hs opt Γ loc stk (.cast (O g) (.bin op (.var (h 2)) (.var (h 1)))))
      ((rmwA hs opt Γ loc stk h g e c).2 + 1)).1.st ≤ (rmwCode hs opt O Γ loc stk cont brk h post g op e c).1.st := by
  generalize hgp : (rmwCode hs opt O Γ loc stk cont brk h post g op e c).1.gp = gp
  generalize hsp : (rmwCode hs opt O Γ loc stk cont brk h post g op e c).1.st = st
  have hg := Nat.le_of_eq hgp
  have hst := Nat.le_of_eq hsp
  unfold rmwCode at hg hst
  rw [gp_seq, gp_seq, gp_seq] at hg
  rw [st_seq, st_seq, st_seq] at hst
  obtain ⟨g1, g2, g3, g4⟩ := hg
  obtain ⟨s1, s2, s3, s4⟩ := hst
  unfold withLabel at g4 s4
  rw [gp_seq, gp_seq, gp_seq, gp_seq] at g4
  rw [st_seq, st_seq] at s4
  refine ⟨?_, g1, s1, g2, s2, ?_, ?_⟩
  · have := g4.2.2.2.1
    unfold casCode at this
    simp only [var_code] at this
    rw [gp_seq, gp_seq] at this
    exact this.2.1
  · exact g4.2.1
  · exact s4.2.1

end

section
variable (E : Env) (P : List Line)

/-- The code gets from one position to another, in a state with the given property. -/
def Gets (gp st : Nat) (pc : Nat) (s : St) (pc' : Nat) (Q : St → Prop) : Prop :=
  ∃ s', Runs E.sym P (pc, s) (pc', s') ∧ Eff E gp st s s' ∧ Q s'

variable {E P} {gp st : Nat}

theorem Gets.trans {pc pc1 pc2 : Nat} {s : St} {Q R : St → Prop} (h : Gets E P gp st pc s pc1 Q)
    (h' : ∀ s1, Eff E gp st s s1 → Q s1 → Gets E P gp st pc1 s1 pc2 R) : Gets E P gp st pc s pc2 R := by
  obtain ⟨s1, r1, e1, q1⟩ := h
  obtain ⟨s2, r2, e2, q2⟩ := h' s1 e1 q1
  exact ⟨s2, r1.trans r2, e1.trans e2, q2⟩

theorem gets_does {o : Out} {s : St} {Q : St → Prop} {pc pc' : Nat} (h : Does E P o s Q) (hc : CodeAt P pc o.code) (hg : o.gp ≤ gp) (hst : o.st ≤ st)
    (he : pc' = pc + o.code.length) : Gets E P gp st pc s pc' Q := by
  obtain ⟨s', r, e, q⟩ := h pc hc
  exact ⟨s', by rw [he]; exact r, e.mono hg hst, q⟩

theorem gets_ins {i : Ins} {s s' : St} {Q : St → Prop} {pc : Nat} (h : exec E.sym i s = some s') (hc : P[pc]? = some (.ins i))
    (he : Eff E gp st s s') (hq : Q s') : Gets E P gp st pc s (pc + 1) Q :=
  ⟨s', Runs.one (by unfold step; simp only [hc, h, Option.map_some]), he, hq⟩

theorem gets_lab {l : Label} {s : St} {Q : St → Prop} {pc : Nat} (hc : P[pc]? = some (.lab l)) (hq : Q s) : Gets E P gp st pc s (pc + 1) Q :=
  ⟨s, Runs.one (by unfold step; simp only [hc]), Eff.refl E _ _ s, hq⟩

/-- The state holds the store. -/
structure Lives (E : Env) (τ : Store) (s : St) : Prop where
  sok : StoreOk E.Γ τ
  bp : s.r .bp = E.bp
  rel : Rel E τ s.m

/-- A write to a register that is not below the depth. -/
theorem eff_setR {s : St} (r : Reg) (v : Word) (f : Option Flags) (h : Scratch r ∨ ∃ i, i < gp ∧ r = .tmp i) : Eff E gp st s { s.setR r v with f := f } := by
  have e : ∀ q, ¬ Scratch q → (∀ i, i < gp → q ≠ .tmp i) → (s.setR r v).r q = s.r q := by
    intro q h1 h2
    refine setR_other _ _ _ _ fun e => ?_
    subst e
    rcases h with h | ⟨i, hi, h⟩
    · exact h1 h
    · exact h2 i hi h
  refine ⟨e _ nbp (by simp), e _ nsp (by simp), fun i hi _ => e _ (ntmp i) fun j hj e => ?_, fun _ _ _ => rfl⟩
  injection e; omega

theorem eff_flags {s : St} (f : Option Flags) : Eff E gp st s { s with f := f } := ⟨rfl, rfl, fun _ _ _ => rfl, fun _ _ _ => rfl⟩

theorem gets_setR {i : Ins} {s : St} {Q : St → Prop} {pc : Nat} (r : Reg) (v : Word) (h : exec E.sym i s = some (s.setR r v)) (hc : P[pc]? = some (.ins i))
    (hr : Scratch r ∨ ∃ j, j < gp ∧ r = .tmp j) (hq : Q (s.setR r v)) : Gets E P gp st pc s (pc + 1) Q :=
  gets_ins h hc (eff_setR r v s.f hr) hq

theorem Lives.congr {τ : Store} {s s' : St} (h : Lives E τ s) (hm : s'.m = s.m) (hb : s'.r .bp = s.r .bp) : Lives E τ s' :=
  ⟨h.sok, hb.trans h.bp, by rw [hm]; exact h.rel⟩

/-- Load of a variable. -/
theorem gets_var (hok : E.Ok) (hu : UniqueLabels P) (hs : HostShift) (opt : Bool) {τ : Store} {s : St} (h : Lives E τ s) {x : Nat} (hx : E.dom x)
    {pc : Nat} (hc : CodeAt P pc ((loadVar opt E.Γ E.loc x).map .ins)) :
    Gets E P gp st pc s (pc + (loadVar opt E.Γ E.loc x).length) fun s' => s'.m = s.m ∧ (∀ r, ¬ Scratch r → s'.r r = s.r r) ∧ Reps (ity (E.Γ x)) (τ x) (s'.r .ax) := by
  have hcalc : Calc E (loadVar opt E.Γ E.loc x) s fun s' => Reps (ity (E.Γ x)) (τ x) (s'.r .ax) := by
    have hr : InRange (cty (ity (E.Γ x))) (τ x) := by rw [cty_ity]; exact h.sok x
    unfold loadVar
    cases opt
    · rw [if_neg (by decide)]
      refine calc_cons (Q := fun s1 => s1.r .ax = E.addr x) ?_ fun s1 hm1 _ q1 => ?_
      · refine calc_setR' _ s .ax _ _ (show exec E.sym (.lea (E.loc x) .ax) _ = _ from rfl) scratch_ax ?_
        rw [setR_same, ea_loc hok hx s h.bp]
      · exact (load_calc (E := E) (σ := τ) (by rw [hm1]; exact h.rel) hx _ (τ x) (.ind .ax) .ax (ity_wf _) hr (by rw [E.size_eq]; exact Nat.le_refl _) ⟨0, by omega⟩
          (by simp only [ea, q1]) scratch_ax).imp fun s' _ q => q.1
    · rw [if_pos rfl]
      exact (load_calc (E := E) h.rel hx _ (τ x) (E.loc x) .ax (ity_wf _) hr (by rw [E.size_eq]; exact Nat.le_refl _) ⟨0, by omega⟩
          (ea_loc hok hx s h.bp) scratch_ax).imp fun s' _ q => q.1
  obtain ⟨s', a, b, c, d⟩ := hcalc
  exact ⟨s', runs_execs P E.sym _ s s' a pc hc, (Calc.eff b c).mono (Nat.zero_le _) (Nat.zero_le _), b, c, d⟩

/-- Assignment to a variable. -/
theorem setVar_ok (hok : E.Ok) (v : Bool) (x : Nat) (rhs : G) (c : Nat) (s : St) {τ σ' : Store} {w : Int} (hl : Lives E τ s) (hx : E.dom x)
    (hK : (setVar E.loc E.stk v (ity (E.Γ x)) x rhs c).1.st ≤ E.K)
    (hb : ∀ s1, Lives E τ s1 → Does E P (rhs c).1 s1 fun s2 => Rel E σ' s2.m ∧ Reps (ity (E.Γ x)) w (s2.r .ax)) :
    Does E P (setVar E.loc E.stk v (ity (E.Γ x)) x rhs c).1 s fun s' => Rel E (σ'.set x w) s'.m ∧ Reps (ity (E.Γ x)) w (s'.r .ax) := by
  unfold setVar at hK ⊢
  cases v
  · rw [if_neg (by decide)] at hK ⊢
    refine does_seq _ _ c s _ _ (does_lea hok x c s hx hl.bp) fun s1 e1 q1 => ?_
    exact saved_store hok .ax x rhs _ s1 _ rfl hx (e1.bp.trans hl.bp) q1.1 (seq_st_le hK).2 fun s2 b1 _ _ b4 =>
      hb s2 ⟨hl.sok, b1, b4 _ (by rw [q1.2]; exact hl.rel)⟩
  · rw [if_pos rfl] at hK ⊢
    refine does_seq _ _ c s _ _ (hb s hl) fun s1 e1 q1 => ?_
    obtain ⟨s2, x2, e2, q2, r2⟩ := store_run hok x w (E.loc x) s1 hx q1.1 (ea_loc hok hx s1 (e1.bp.trans hl.bp)) q1.2.low
    refine does_inss _ s1 s2 _ ?_ e2 ⟨q2, by rw [r2]; exact q1.2⟩ _
    simp only [execs, x2, Option.bind_some]

theorem slot_reg {gp st i : Nat} (h : slot gp st = .reg i) : i = gp ∧ i < GP_SLOTS := by
  unfold slot at h
  split at h
  · injection h with h; subst h; exact ⟨rfl, by assumption⟩
  · cases h

theorem slot_stk {gp st k : Nat} (h : slot gp st = .stk k) : k = st := by
  unfold slot at h
  split at h
  · cases h
  · injection h with h; exact h.symm

/-- A temporary above the depth is kept. -/
theorem saved_eff (hok : E.Ok) {gp st : Nat} {s1 s2 : St} {w : Word} (h : Saved E (slot gp st) 8 w s1) (e : Eff E gp st s1 s2)
    (hK : slot gp st = .stk st → st < E.K) : Saved E (slot gp st) 8 w s2 := by
  cases hl : slot gp st with
  | reg i =>
    rw [hl] at h
    have h : s1.r (.tmp i) = _ := h
    show s2.r (.tmp i) = _
    rw [e.regs i (Nat.le_of_eq (slot_reg hl).1.symm) (slot_reg hl).2, h]
  | stk k =>
    have := slot_stk hl
    subst this
    rw [hl] at h
    have h : rd s1.m (E.slot k) 8 = _ := h
    show rd s2.m (E.slot k) 8 = _
    have hk := hK hl
    rw [← h]
    refine rd_congr _ _ _ _ (by omega) fun a ha => e.mem a (fun x hx hax => ?_) fun j hj hak => ?_
    · exact hok.slots x _ hx hk a ⟨hax, ha⟩
    · exact slots_disj E hok j k (by omega) hk (by omega) a ⟨hak, ha⟩

/-- Saving a register. -/
theorem push_run (hok : E.Ok) (src : Reg) (gp st : Nat) (s : St) (hbp : s.r .bp = E.bp) (hK : slot gp st = .stk st → st < E.K) :
    ∃ s1, execs E.sym (pushIns E.stk true src (slot gp st)) s = some s1 ∧ s1.r .bp = E.bp ∧ (∀ σ, Rel E σ s.m → Rel E σ s1.m) ∧
      Saved E (slot gp st) 8 (s.r src) s1 := by
  cases hl : slot gp st with
  | reg i =>
    refine ⟨_, rfl, ?_, fun σ hσ => hσ, ?_⟩
    · rw [setR_other _ _ _ _ (by simp), hbp]
    · show (St.setR _ _ _).r _ = _
      rw [setR_same, put_rsz]; simp only [X86.get, zx_zx]; rfl
  | stk k =>
    have := slot_stk hl
    subst this
    have hea := ea_slot (E := E) k s hbp
    refine ⟨_, rfl, hbp, fun σ hσ => ?_, ?_⟩
    · refine rel_congr hσ fun a x hx ha => ?_
      dsimp only
      rw [hea]
      exact wr_other _ _ _ _ _ fun hc => hok.slots x _ hx (hK hl) a ⟨ha, hc⟩
    · unfold Saved
      dsimp only
      rw [hea]
      show rd (wr s.m (E.slot k) 8 _) _ 8 = _
      rw [rd_wr_same _ _ _ _ (by omega)]
      simp only [X86.get]
      exact zx_zx 8 _

end
end Slimcc
