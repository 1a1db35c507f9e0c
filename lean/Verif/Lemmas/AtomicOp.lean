import Verif.Lemmas.AtomicSeg
/-! One read-modify-write operation: how its code runs between the accesses to shared memory. -/
set_option autoImplicit false
namespace Slimcc
open Slimcc.Spec Slimcc.Spec.CTy Slimcc.Ty Slimcc.X86 Slimcc.Gen

/-- An operation and where its code is. -/
structure Rmw where
  E : Env
  P : List Line
  hs : HostShift
  opt : Bool
  O : Nat → CTy
  cont : Nat
  brk : Nat
  h : Nat → Nat
  post : Bool
  g : Nat
  op : BinOp
  e : Expr
  c : Nat
  pc : Nat

namespace Rmw
variable (X : Rmw)

def code : G := rmwCode X.hs X.opt X.O X.E.Γ X.E.loc X.E.stk X.cont X.brk X.h X.post X.g X.op X.e
def A : G := rmwA X.hs X.opt X.E.Γ X.E.loc X.E.stk X.h X.g X.e
def b : Nat := (X.A X.c).2
def N : G := rmwN X.hs X.opt X.O X.E.Γ X.E.loc X.E.stk X.cont X.h X.g X.op
def gp : Nat := (X.code X.c).1.gp
def st : Nat := (X.code X.c).1.st
def t : ITy := ity (X.O X.g)
/-- The positions of the load, the start of the loop and the exchange. -/
def pL : Nat := X.pc + (X.A X.c).1.code.length
def pB : Nat := X.pL + 2
def pX : Nat := X.pB + 1 + (X.N (X.b + 1)).1.code.length
def pE : Nat := X.pc + (X.code X.c).1.code.length

structure Ok : Prop where
  env : X.E.Ok
  uniq : UniqueLabels X.P
  at_ : CodeAt X.P X.pc (X.code X.c).1.code
  K : X.st ≤ X.E.K
  dom : ∀ i, i < 4 → X.E.dom (X.h i)
  ty0 : X.E.Γ (X.h 0) = .ulong
  ty1 : X.E.Γ (X.h 1) = X.e.ty X.E.Γ
  ty2 : X.E.Γ (X.h 2) = X.O X.g
  ty3 : X.E.Γ (X.h 3) = X.O X.g
  inj : ∀ i j, i < 4 → j < 4 → X.h i = X.h j → i = j
  wf : X.e.Wf
  vars : ∀ x ∈ X.e.vars, X.E.dom x
  seq : X.opt = true → X.e.Sequenced
  hid : ∀ i, i < 4 → X.h i ∉ X.e.vars

variable {X}

theorem parts (h : X.Ok) :
    CodeAt X.P X.pc (X.A X.c).1.code ∧ CodeAt X.P X.pL (rmwL X.t) ∧ X.P[X.pB]? = some (.lab (.begin X.b)) ∧
    CodeAt X.P (X.pB + 1) (X.N (X.b + 1)).1.code ∧ X.P[X.pX]? = some (.cmpxchg X.t.size .dx (.tmp 1)) ∧
    CodeAt X.P (X.pX + 1) (rmwC X.opt X.t X.b X.brk) ∧
    CodeAt X.P (X.pX + 1 + (rmwC X.opt X.t X.b X.brk).length) ((loadVar X.opt X.E.Γ X.E.loc (X.h (if X.post then 2 else 3))).map .ins) ∧
    X.pE = X.pX + 1 + (rmwC X.opt X.t X.b X.brk).length + (loadVar X.opt X.E.Γ X.E.loc (X.h (if X.post then 2 else 3))).length := by
  have ha := h.at_
  have hc := rmw_code X.hs X.opt X.O X.E.Γ X.E.loc X.E.stk X.cont X.brk X.h X.post X.g X.op X.e X.c
  unfold code at ha
  have hlen : X.pE = X.pc + (rmwCode X.hs X.opt X.O X.E.Γ X.E.loc X.E.stk X.cont X.brk X.h X.post X.g X.op X.e X.c).1.code.length := rfl
  rw [hc] at ha hlen
  simp only [codeAt_append, codeAt_one, List.length_append, List.length_singleton] at ha hlen
  obtain ⟨h1, h2, h3, h4, h5, h6, h7⟩ := ha
  refine ⟨h1, h2, h3, h4, h5, h6, h7, ?_⟩
  rw [hlen]
  unfold pX pB pL N b A t
  simp only [rmwL, List.length_cons, List.length_nil, List.length_map]
  omega

/-- The address of the object as the value of `addr`. -/
def addr (X : Rmw) : Int := ((X.E.sym X.g).toNat : Int)

theorem addr_word (X : Rmw) : BitVec.ofInt 64 X.addr = X.E.sym X.g := by
  unfold addr
  rw [BitVec.ofInt_natCast, BitVec.ofNat_toNat]
  simp

theorem addr_range (X : Rmw) : InRange .ulong X.addr := by
  rw [range_ulong]
  unfold addr
  have := (X.E.sym X.g).isLt
  omega

theorem ready (h : X.Ok) {τ : Store} {s : St} (hl : Lives X.E τ s) : Ready X.E X.opt (.assign (X.h 1) X.e) τ s :=
  ⟨h.wf, fun x hx => by
    rcases List.mem_cons.1 hx with rfl | hx
    · exact h.dom 1 (by omega)
    · exact h.vars x hx, h.seq, hl.sok, hl.bp, hl.rel⟩

theorem range (h : X.Ok) {τ τ1 : Store} {v : Int} (hτ : StoreOk X.E.Γ τ) (hv : ceval X.E.Γ X.e τ = .ok (v, τ1)) :
    InRange (X.e.ty X.E.Γ) v ∧ StoreOk X.E.Γ τ1 := by
  have := (build_impl (Γ := X.E.Γ) (nt := ty_int) (acc := 0) X.hs X.opt (by decide) X.e h.wf).range (by decide) τ hτ hv
  rwa [cty_ity] at this

/-- From the start to the load. -/
theorem run_A (h : X.Ok) {τ τ1 : Store} {v : Int} {s : St} (hl : Lives X.E τ s)
    (hv : ceval X.E.Γ X.e (τ.set (X.h 0) X.addr) = .ok (v, τ1)) :
    Gets X.E X.P X.gp X.st X.pc s X.pL fun s' => Lives X.E (τ1.set (X.h 1) v) s' ∧ s'.r .ax = X.E.sym X.g ∧ s'.r (.tmp 0) = X.E.addr (X.h 2) := by
  obtain ⟨d2, d3, d4, d5, d6, -, -⟩ := rmw_depth X.hs X.opt X.O X.E.Γ X.E.loc X.E.stk X.cont X.brk X.h X.post X.g X.op X.e X.c
  have hgp : 2 ≤ X.gp := d2
  have hA := (parts h).1
  unfold A rmwA at hA
  simp only [codeAt_seq, var_code] at hA
  obtain ⟨a1, a2, a3, a4, a5⟩ := hA
  have hd := h.dom
  have hτ0 : StoreOk X.E.Γ (τ.set (X.h 0) X.addr) := StoreOk.set hl.sok _ _ (by rw [h.ty0]; exact addr_range X)
  have hr := range h hτ0 hv
  have hτ1 : StoreOk X.E.Γ (τ1.set (X.h 1) v) := StoreOk.set hr.2 _ _ (by rw [h.ty1]; exact hr.1)
  have hk0 : τ1 (X.h 0) = X.addr := by
    rw [ceval_keeps X.E.Γ X.e _ τ1 v hv _ (h.hid 0 (by omega)), set_eq]
  -- addr = &obj
  have hK1 : (setVar X.E.loc X.E.stk X.opt (ity .ulong) (X.h 0) (inss [.lea (.sym X.g) .ax]) X.c).1.st ≤ X.E.K := Nat.le_trans d4 h.K
  rw [← h.ty0] at hK1 a1 a2 a3 a4 a5 d3 d4 d5 d6
  refine (gets_does (pc' := X.pc + (setVar X.E.loc X.E.stk X.opt (ity (X.E.Γ (X.h 0))) (X.h 0) (inss [.lea (.sym X.g) .ax]) X.c).1.code.length)
    (setVar_ok (P := X.P) h.env X.opt (X.h 0) (inss [.lea (.sym X.g) .ax]) X.c s (σ' := τ) (w := X.addr) hl (hd 0 (by omega)) hK1
    fun s1 hl1 => ?_) a1 d3 d4 rfl).trans fun s1 e1 q1 => ?_
  · refine does_calc (Q := fun s' => s'.r .ax = X.E.sym X.g) ?_ (fun s' hm q => ⟨by rw [hm]; exact hl1.rel, ?_⟩) _
    · exact calc_setR' _ s1 .ax _ _ (show exec X.E.sym (.lea (.sym X.g) .ax) _ = _ from rfl) scratch_ax (setR_same _ _ _)
    · exact Reps.of_eq _ _ (by rw [q, addr_word])
  -- val = e
  have hl1 : Lives X.E (τ.set (X.h 0) X.addr) s1 := ⟨hτ0, e1.bp.trans hl.bp, q1.1⟩
  have hva : ceval X.E.Γ (.assign (X.h 1) X.e) (τ.set (X.h 0) X.addr) = .ok (v, τ1.set (X.h 1) v) := by
    rw [ceval_assign, hv, ok_bind, h.ty1, conv_id _ _ hr.1]
  refine (gets_does (compileVoid_ok (P := X.P) h.env h.uniq X.hs _ _ _ s1 v _ (ready h hl1) hva (Nat.le_trans d6 h.K)) a2 d5 d6 rfl).trans fun s2 e2 q2 => ?_
  have hl2 : Lives X.E (τ1.set (X.h 1) v) s2 := ⟨hτ1, e2.bp.trans hl1.bp, q2⟩
  -- old = *addr, up to the load
  simp only [inss, lines, List.map_cons, List.map_nil, codeAt_one, List.length_singleton] at a3 a4 a5
  refine (gets_setR (Q := fun s' => Lives X.E (τ1.set (X.h 1) v) s' ∧ s'.r .ax = X.E.addr (X.h 2)) .ax _ rfl a3 (Or.inl scratch_ax)
    ⟨hl2.congr rfl (setR_other _ _ _ _ (by simp)), ?_⟩).trans fun s3 e3 q3 => ?_
  · rw [setR_same, ea_loc h.env (hd 2 (by omega)) s2 hl2.bp]
  refine (gets_setR (Q := fun s' => Lives X.E (τ1.set (X.h 1) v) s' ∧ s'.r (.tmp 0) = X.E.addr (X.h 2)) (.tmp 0) _ rfl a4 (Or.inr ⟨0, by omega, rfl⟩)
    ⟨q3.1.congr rfl (setR_other _ _ _ _ (by simp)), ?_⟩).trans fun s4 e4 q4 => ?_
  · rw [setR_same, put_of_rop 8 _ _ (Or.inr rfl)]
    simp only [X86.get, zx8, q3.2]
  obtain ⟨s5, r5, e5, m5, k5, p5⟩ := gets_var (gp := X.gp) (st := X.st) h.env h.uniq X.hs X.opt q4.1 (hd 0 (by omega)) a5
  refine ⟨s5, ?_, e5, q4.1.congr m5 (k5 _ nbp), ?_, by rw [k5 _ (ntmp 0), q4.2]⟩
  · have hpc : X.pL = X.pc + (rmwA X.hs X.opt X.E.Γ X.E.loc X.E.stk X.h X.g X.e X.c).1.code.length := rfl
    rw [hpc]
    unfold rmwA
    rw [← h.ty0]
    simp only [var_code, len_seq, inss, lines, List.map_cons, List.map_nil, List.length_singleton, List.length_map, ← Nat.add_assoc]
    exact r5
  · rw [set_ne (fun e => by have := h.inj 0 1 (by omega) (by omega) e; omega), hk0, h.ty0] at p5
    have := p5.low
    rw [show (ity .ulong).size = 8 from rfl] at this
    rw [this.eq8, addr_word]

/-- The value loaded is stored in `old`. -/
theorem run_B (h : X.Ok) {τ : Store} {x : Int} {s : St} (hl : Lives X.E τ s) (hx : InRange (X.O X.g) x) (hax : Low X.t.size x (s.r .ax))
    (h0 : s.r (.tmp 0) = X.E.addr (X.h 2)) :
    Gets X.E X.P X.gp X.st (X.pL + 1) s X.pB fun s' => Lives X.E (τ.set (X.h 2) x) s' := by
  have hL := (parts h).2.1
  unfold rmwL at hL
  rw [codeAt_two] at hL
  obtain ⟨s', x', e', q', r'⟩ := store_run h.env (X.h 2) x (.ind (.tmp 0)) s (h.dom 2 (by omega)) hl.rel (by simp only [ea, h0]) (by rw [h.ty2]; exact hax)
  rw [h.ty2] at x'
  exact gets_ins x' hL.2 (e'.mono (Nat.zero_le _) (Nat.zero_le _)) ⟨StoreOk.set hl.sok _ _ (by rw [h.ty2]; exact hx), e'.bp.trans hl.bp, q'⟩

/-- From the start of the loop to the exchange. -/
theorem run_N (h : X.Ok) {τ : Store} {w : Int} {s : St} (hl : Lives X.E τ s) (ha : τ (X.h 0) = X.addr)
    (hw : binop X.op (X.O X.g) (X.e.ty X.E.Γ) (τ (X.h 2)) (τ (X.h 1)) = .ok w) :
    Gets X.E X.P X.gp X.st X.pB s X.pX fun s' => Lives X.E (τ.set (X.h 3) (conv (X.O X.g) w)) s' ∧ Low X.t.size (τ (X.h 2)) (s'.r .ax) ∧
      Low X.t.size (conv (X.O X.g) w) (s'.r .dx) ∧ s'.r (.tmp 0) = X.E.addr (X.h 2) ∧ s'.r (.tmp 1) = X.E.sym X.g := by
  obtain ⟨d2, -, -, -, -, d7, d8⟩ := rmw_depth X.hs X.opt X.O X.E.Γ X.E.loc X.E.stk X.cont X.brk X.h X.post X.g X.op X.e X.c
  have hgp : 2 ≤ X.gp := d2
  obtain ⟨-, -, hB, hN, -⟩ := parts h
  have hd := h.dom
  have hne : ∀ i, i < 4 → i ≠ 3 → X.h i ≠ X.h 3 := fun i hi hi3 e => hi3 (h.inj i 3 hi (by omega) e)
  unfold N rmwN at hN
  simp only [codeAt_seq, var_code] at hN
  obtain ⟨n1, n2, n3, n4, n5, n6, n7, n8⟩ := hN
  refine (gets_lab (Q := fun s' => Lives X.E τ s') hB hl).trans fun s0 _ hl => ?_
  -- new = old op val
  have hwr : InRange (X.O X.g) (conv (X.O X.g) w) := conv_range _ _
  have hK : (setVar X.E.loc X.E.stk false (ity (X.O X.g)) (X.h 3) (compileExpr X.hs X.opt X.E.Γ X.E.loc X.E.stk (.cast (X.O X.g) (.bin X.op (.var (X.h 2)) (.var (X.h 1)))))
      (X.b + 1)).1.st ≤ X.E.K := Nat.le_trans d8 h.K
  have hd7 := d7
  have hd8 := d8
  have ht : ity (X.O X.g) = ity (X.E.Γ (X.h 3)) := by rw [h.ty3]
  have main : Gets X.E X.P X.gp X.st (X.pB + 1) s0 (X.pB + 1 + (setVar X.E.loc X.E.stk false (ity (X.O X.g)) (X.h 3) (compileExpr X.hs X.opt X.E.Γ X.E.loc X.E.stk (.cast (X.O X.g) (.bin X.op (.var (X.h 2)) (.var (X.h 1)))))
      (X.b + 1)).1.code.length) fun s' => Rel X.E (τ.set (X.h 3) (conv (X.O X.g) w)) s'.m := by
    refine gets_does (Does.imp (Q := fun s' => Rel X.E (τ.set (X.h 3) (conv (X.O X.g) w)) s'.m ∧ Reps (ity (X.E.Γ (X.h 3))) (conv (X.O X.g) w) (s'.r .ax)) ?_ fun s' _ q => q.1) n1 hd7 hd8 rfl
    rw [ht]
    rw [ht] at hK
    refine setVar_ok (P := X.P) h.env false (X.h 3) _ _ s0 hl (hd 3 (by omega)) hK fun s1 hl1 => ?_
    rw [h.ty3]
    refine compileExpr_ok h.env h.uniq X.hs _ τ τ s1 _ _ ⟨⟨trivial, trivial⟩, fun x hx => ?_, fun _ => ⟨trivial, trivial, fun _ _ hx => by cases hx⟩, hl1.sok, hl1.bp, hl1.rel⟩ ?_
      (Nat.le_trans (setVar_depth X.E.loc X.E.stk false _ (X.h 3) _ _).2 hK)
    · rcases List.mem_append.1 hx with hx | hx
      · rcases List.mem_singleton.1 hx with rfl; exact hd 2 (by omega)
      · rcases List.mem_singleton.1 hx with rfl; exact hd 1 (by omega)
    · rw [ceval_cast, ceval_bin]
      simp only [ceval, ok_bind, Expr.ty, h.ty2, h.ty1, hw]
  refine main.trans fun s1 e1 q1 => ?_
  have hl1 : Lives X.E (τ.set (X.h 3) (conv (X.O X.g) w)) s1 := ⟨StoreOk.set hl.sok _ _ (by rw [h.ty3]; exact hwr), e1.bp.trans hl.bp, q1⟩
  simp only [inss, lines, List.map_cons, List.map_nil, codeAt_one, List.length_singleton] at n2 n3 n4 n5 n6 n7 n8
  refine (gets_lab (Q := fun s' => Lives X.E (τ.set (X.h 3) (conv (X.O X.g) w)) s') n2 hl1).trans fun s2 _ hl2 => ?_
  refine (gets_var h.env h.uniq X.hs X.opt hl2 (hd 0 (by omega)) n3).trans fun s3 _ ⟨m3, k3, p3⟩ => ?_
  have hl3 := hl2.congr m3 (k3 _ nbp)
  have ax3 : s3.r .ax = X.E.sym X.g := by
    rw [set_ne (hne 0 (by omega) (by omega)), ha, h.ty0] at p3
    have := p3.low
    rw [show (ity .ulong).size = 8 from rfl] at this
    rw [this.eq8, addr_word]
  simp only [List.length_map] at n4 n5 n6 n7 n8
  refine (gets_setR (Q := fun s' => Lives X.E (τ.set (X.h 3) (conv (X.O X.g) w)) s' ∧ s'.r (.tmp 1) = X.E.sym X.g) (.tmp 1) _ rfl n4 (Or.inr ⟨1, by omega, rfl⟩)
    ⟨hl3.congr rfl (setR_other _ _ _ _ (by simp)), ?_⟩).trans fun s4 _ q4 => ?_
  · rw [setR_same, put_of_rop 8 _ _ (Or.inr rfl)]
    simp only [X86.get, zx8, ax3]
  refine (gets_setR (Q := fun s' => Lives X.E (τ.set (X.h 3) (conv (X.O X.g) w)) s' ∧ s'.r (.tmp 1) = X.E.sym X.g ∧ s'.r .ax = X.E.addr (X.h 2)) .ax _ rfl n5 (Or.inl scratch_ax)
    ⟨q4.1.congr rfl (setR_other _ _ _ _ (by simp)), ?_, ?_⟩).trans fun s5 _ q5 => ?_
  · rw [setR_other _ _ _ _ (by simp), q4.2]
  · rw [setR_same, ea_loc h.env (hd 2 (by omega)) s4 q4.1.bp]
  refine (gets_setR (Q := fun s' => Lives X.E (τ.set (X.h 3) (conv (X.O X.g) w)) s' ∧ s'.r (.tmp 1) = X.E.sym X.g ∧ s'.r (.tmp 0) = X.E.addr (X.h 2)) (.tmp 0) _ rfl n6 (Or.inr ⟨0, by omega, rfl⟩)
    ⟨q5.1.congr rfl (setR_other _ _ _ _ (by simp)), ?_, ?_⟩).trans fun s6 _ q6 => ?_
  · rw [setR_other _ _ _ _ (by simp), q5.2.1]
  · rw [setR_same, put_of_rop 8 _ _ (Or.inr rfl)]
    simp only [X86.get, zx8, q5.2.2]
  refine (gets_var h.env h.uniq X.hs X.opt q6.1 (hd 3 (by omega)) n7).trans fun s7 _ ⟨m7, k7, p7⟩ => ?_
  have hl7 := q6.1.congr m7 (k7 _ nbp)
  rw [set_eq, h.ty3] at p7
  rw [codeAt_two] at n8
  have hsz := size_cases X.t
  refine (gets_setR (Q := fun s' => s'.m = s7.m ∧ s'.r .bp = s7.r .bp ∧ Low X.t.size (conv (X.O X.g) w) (s'.r .dx) ∧ s'.r (.tmp 0) = X.E.addr (X.h 2) ∧ s'.r (.tmp 1) = X.E.sym X.g)
    .dx _ rfl n8.1 (Or.inl scratch_dx) ⟨rfl, setR_other _ _ _ _ (by simp), ?_, ?_, ?_⟩).trans fun s8 _ q8 => ?_
  · rw [setR_same]
    simp only [X86.get]
    exact p7.low.zx.same (put_same _ _ _)
  · rw [setR_other _ _ _ _ (by simp), k7 _ (ntmp 0), q6.2.2]
  · rw [setR_other _ _ _ _ (by simp), k7 _ (ntmp 1), q6.2.1]
  obtain ⟨m8, b8, x8, t8, u8⟩ := q8
  have hl8 : Lives X.E (τ.set (X.h 3) (conv (X.O X.g) w)) s8 := hl7.congr m8 b8
  have hrd : rd s8.m (X.E.addr (X.h 2)) (ity (X.O X.g)).size = zx (ity (X.O X.g)).size (BitVec.ofInt 64 (τ (X.h 2))) := by
    have := rd_var hl8.rel (hd 2 (by omega)) (ity (X.O X.g)).size (by rw [X.E.size_eq, h.ty2]; exact Nat.le_refl _)
    rwa [set_ne (hne 2 (by omega) (by omega))] at this
  have hend : X.pX = X.pB + 1 + (setVar X.E.loc X.E.stk false (ity (X.O X.g)) (X.h 3) (compileExpr X.hs X.opt X.E.Γ X.E.loc X.E.stk (.cast (X.O X.g) (.bin X.op (.var (X.h 2)) (.var (X.h 1)))))
      (X.b + 1)).1.code.length + 1 + (loadVar X.opt X.E.Γ X.E.loc (X.h 0)).length + 1 + 1 + 1 + (loadVar X.opt X.E.Γ X.E.loc (X.h 3)).length + 1 + 1 := by
    unfold pX N rmwN
    simp only [var_code, len_seq, inss, lines, List.map_cons, List.map_nil, List.length_singleton, List.length_map, List.length_cons, List.length_nil]
    omega
  rw [hend]
  refine gets_setR .ax _ rfl n8.2 (Or.inl scratch_ax) ⟨hl8.congr rfl (setR_other _ _ _ _ (by simp)), ?_, ?_, ?_, ?_⟩
  · rw [setR_same]
    simp only [X86.get, ea, t8, hrd]
    exact ((Low.of_eq X.t.size (τ (X.h 2)) (size_le X.t).1).zx).same (put_same _ _ _)
  · rw [setR_other _ _ _ _ (by simp)]; exact x8
  · rw [setR_other _ _ _ _ (by simp), t8]
  · rw [setR_other _ _ _ _ (by simp), u8]

/-- The end of the loop. -/
theorem run_end (h : X.Ok) {s : St} {τ : Store} {y : Int} (f : Flags) (hf : s.f = some f) (hl : Lives X.E τ s) (hy : InRange (X.O X.g) y)
    (hax : f.eq = false → Low X.t.size y (s.r .ax)) (h0 : s.r (.tmp 0) = X.E.addr (X.h 2)) :
    Gets X.E X.P X.gp X.st (X.pX + 1) s (if f.eq then X.pX + 1 + (rmwC X.opt X.t X.b X.brk).length else X.pB)
      fun s' => Lives X.E (if f.eq then τ else τ.set (X.h 2) y) s' := by
  obtain ⟨-, -, hB, -, -, hC, -⟩ := parts h
  have hfind := find_of_at X.P h.uniq _ _ hB
  unfold rmwC at hC ⊢
  rw [codeAt_append] at hC
  obtain ⟨c1, c2⟩ := hC
  simp only [codeAt_cons] at c1
  obtain ⟨i1, i2, i3, i4, -⟩ := c1
  -- sete
  refine (gets_setR (Q := fun s' => s'.m = s.m ∧ (∀ r, r ≠ .cx → s'.r r = s.r r) ∧ s'.f = some f ∧ zx 1 (s'.r .cx) = if f.eq then 1 else 0) .cx
    (put 1 (s.r .cx) (if f.eq then 1 else 0)) (by simp only [exec, hf, CC.holds]; rfl) i1 (Or.inl scratch_cx)
    ⟨rfl, fun r hr => setR_other _ _ _ _ hr, hf, ?_⟩).trans fun s1 _ q1 => ?_
  · rw [setR_same, put1_exact]; split <;> rfl
  obtain ⟨m1, k1, f1, z1⟩ := q1
  have hl1 : Lives X.E τ s1 := hl.congr m1 (k1 _ (by simp))
  -- je and the store to `old`
  have main : Gets X.E X.P X.gp X.st (X.pX + 1 + 1) s1 (X.pX + 1 + 1 + 1 + 1) fun s' =>
      Lives X.E (if f.eq then τ else τ.set (X.h 2) y) s' ∧ zx 1 (s'.r .cx) = if f.eq then 1 else 0 := by
    have hst : step X.E.sym X.P (X.pX + 1 + 1, s1) = some (if f.eq then X.pX + 1 + 1 + 2 else X.pX + 1 + 1 + 1, s1) := by
      unfold step; simp only [i2, f1]
    by_cases hfe : f.eq = true
    · rw [hfe] at hst z1 ⊢
      exact ⟨s1, Runs.one hst, Eff.refl _ _ _ _, hl1, z1⟩
    · have hfe : f.eq = false := by cases hh : f.eq <;> simp_all
      rw [hfe] at hst z1 ⊢
      obtain ⟨s', x', e', q', r'⟩ := store_run h.env (X.h 2) y (.ind (.tmp 0)) s1 (h.dom 2 (by omega)) hl1.rel (by simp only [ea, k1 (.tmp 0) (by simp), h0])
        (by rw [h.ty2, k1 .ax (by simp)]; exact hax hfe)
      rw [h.ty2] at x'
      refine Gets.trans (Q := fun s' => s' = s1) ⟨s1, Runs.one hst, Eff.refl _ _ _ _, rfl⟩ fun s2 _ h2 => ?_
      subst h2
      exact gets_ins x' i3 (e'.mono (Nat.zero_le _) (Nat.zero_le _))
        ⟨⟨StoreOk.set hl.sok _ _ (by rw [h.ty2]; exact hy), e'.bp.trans hl1.bp, q'⟩, by rw [r']; exact z1⟩
  refine main.trans fun s2 _ ⟨hl2, z2⟩ => ?_
  refine (gets_setR (Q := fun s' => Lives X.E (if f.eq then τ else τ.set (X.h 2) y) s' ∧ s'.r .ax = if f.eq then 1 else 0) .ax _ rfl i4 (Or.inl scratch_ax)
    ⟨hl2.congr rfl (setR_other _ _ _ _ (by simp)), ?_⟩).trans fun s3 _ ⟨hl3, x3⟩ => ?_
  · rw [setR_same, put_of_rop 4 _ _ (Or.inl rfl)]
    simp only [X86.get, Bool.false_eq_true, if_false, z2]
    split <;> rfl
  rw [show X.pX + 1 + [Line.ins (.set .e .cx), .jeOver, .ins (.mov X.t.size (.reg .ax) (.mem (.ind (.tmp 0)))), .ins (.movx false 1 4 (.reg .cx) .ax)].length = X.pX + 1 + 1 + 1 + 1 + 1 from rfl] at c2
  rw [List.length_append]
  -- the test
  have htest : ∀ (pc : Nat) (s : St) (cc : CC) (u : Bool), Lives X.E (if f.eq then τ else τ.set (X.h 2) y) s →
      cc.holds (testFlags 1 (zx 1 (s.r .ax))) = !f.eq →
      X.P[pc]? = some (.ins (.test 1 (.reg .ax) (.reg .ax))) → X.P[pc + 1]? = some (.jcc cc (.begin X.b)) → X.P[pc + 1 + 1]? = some (.lab (.name X.brk)) →
      Gets X.E X.P X.gp X.st pc s (if f.eq then pc + 3 else X.pB) fun s' => Lives X.E (if f.eq then τ else τ.set (X.h 2) y) s' := by
    intro pc s cc u hl hh c1 c2 c3
    refine (gets_ins (Q := fun s' => Lives X.E (if f.eq then τ else τ.set (X.h 2) y) s' ∧ s'.f = some (testFlags 1 (zx 1 (s.r .ax)))) (s' := { s with f := some (testFlags 1 (zx 1 (s.r .ax) &&& zx 1 (s.r .ax))) }) rfl c1 (eff_flags _) ⟨hl.congr rfl rfl, ?_⟩).trans fun s1 _ q1 => ?_
    · simp only [X86.get, BitVec.and_self]
    have := jcc_run (sym := X.E.sym) (pc + 1) s1 _ cc (.begin X.b) X.pB c2 q1.2 hfind
    rw [hh] at this
    cases hfe : f.eq with
    | true =>
      rw [hfe] at this q1
      exact Gets.trans ⟨s1, this, Eff.refl _ _ _ _, q1.1⟩ fun s2 _ q2 => gets_lab c3 q2
    | false =>
      rw [hfe] at this q1
      exact ⟨s1, this, Eff.refl _ _ _ _, q1.1⟩
  cases ho : X.opt with
  | true =>
    rw [ho] at c2
    simp only [if_true, List.nil_append, codeAt_cons] at c2
    obtain ⟨j1, j2, j3, -⟩ := c2
    have := htest _ s3 .e true hl3 ?_ j1 j2 j3
    · simpa [Nat.add_assoc] using this
    · rw [x3]; cases f.eq <;> decide
  | false =>
    rw [ho] at c2
    simp only [Bool.false_eq_true, if_false, List.cons_append, List.nil_append, codeAt_cons] at c2
    obtain ⟨j0, j1, j2, j3, -⟩ := c2
    have hx1 := xor1_calc (E := X.E) s3 (if f.eq then 1 else 0) (by rw [x3]; cases f.eq <;> rfl) (by cases f.eq <;> simp)
    obtain ⟨s4, a4, b4, c4, d4⟩ := hx1
    simp only [execs] at a4
    obtain ⟨s5, a5, a6⟩ := Option.bind_eq_some_iff.1 a4
    cases a6
    refine (gets_ins (Q := fun s' => s' = s4) a5 j0 ((Calc.eff b4 c4).mono (Nat.zero_le _) (Nat.zero_le _)) rfl).trans fun s5 _ e5 => ?_
    subst e5
    have := htest _ s5 .ne true (hl3.congr b4 (c4 _ nbp)) ?_ j1 j2 j3
    · simpa [Nat.add_assoc] using this
    · rw [d4]; cases f.eq <;> decide

/-- After a successful exchange. -/
theorem run_S (h : X.Ok) {s : St} {τ : Store} (f : Flags) (hf : s.f = some f) (he : f.eq = true) (hl : Lives X.E τ s) (h0 : s.r (.tmp 0) = X.E.addr (X.h 2)) :
    Gets X.E X.P X.gp X.st (X.pX + 1) s X.pE fun s' => Lives X.E τ s' ∧ Reps X.t (τ (X.h (if X.post then 2 else 3))) (s'.r .ax) := by
  have := run_end h (y := 0) f hf hl ?_ (fun h => by rw [he] at h; cases h) h0
  · rw [he] at this
    refine this.trans fun s1 _ hl1 => ?_
    obtain ⟨-, -, -, -, -, -, hR, hE⟩ := parts h
    rw [hE]
    have hd : X.E.dom (X.h (if X.post then 2 else 3)) := by split <;> exact h.dom _ (by omega)
    have ht : ity (X.E.Γ (X.h (if X.post then 2 else 3))) = X.t := by
      unfold t
      split
      · rw [h.ty2]
      · rw [h.ty3]
    obtain ⟨s2, r2, e2, m2, k2, p2⟩ := gets_var (gp := X.gp) (st := X.st) h.env h.uniq X.hs X.opt hl1 hd hR
    exact ⟨s2, r2, e2, hl1.congr m2 (k2 _ nbp), by rw [← ht]; exact p2⟩
  · exact ⟨by cases X.O X.g <;> decide, by cases X.O X.g <;> decide⟩

/-- After a failed exchange: back to the start of the loop with the value found. -/
theorem run_F (h : X.Ok) {s : St} {τ : Store} {y : Int} (f : Flags) (hf : s.f = some f) (he : f.eq = false) (hl : Lives X.E τ s) (hy : InRange (X.O X.g) y)
    (hax : Low X.t.size y (s.r .ax)) (h0 : s.r (.tmp 0) = X.E.addr (X.h 2)) :
    Gets X.E X.P X.gp X.st (X.pX + 1) s X.pB fun s' => Lives X.E (τ.set (X.h 2) y) s' := by
  have := run_end h f hf hl hy (fun _ => hax) h0
  rwa [he] at this

end Rmw
end Slimcc
