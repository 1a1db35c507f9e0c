import Verif.Spec.AtomicRun
import Verif.Lemmas.AtomicOp
import Verif.Lemmas.AtomicLabels
/-! One thread: from each access to shared memory to the next. -/
set_option autoImplicit false
namespace Slimcc
open Slimcc.Spec Slimcc.Spec.CTy Slimcc.Ty Slimcc.X86 Slimcc.Gen Slimcc.Atomic

namespace Atomic.Thr
variable (T : Thr)

def P : List Line := T.gen.code

/-- The store of the thread and that of its program agree on the variables of the program. -/
def Sees (σ τ : Store) : Prop := AgreeOn (fun x => ¬ T.Hidden x) σ τ

variable {T}

theorem uniq (T : Thr) : UniqueLabels T.P := atomicCode_unique T.hs T.opt T.O T.E.Γ T.E.loc T.E.stk T.hid T.code T.c

theorem codeAt_self (P : List Line) : CodeAt P 0 P := fun i _ => by rw [Nat.zero_add]

/-- Where statement `k` is. -/
theorem stmt_at (k : Nat) (s : Stmt) (h : T.code[k]? = some s) : ∃ q c, T.P[q]? = some (.lab (.name k)) ∧
    CodeAt T.P (q + 1) (atomicStmt T.hs T.opt T.O T.E.Γ T.E.loc T.E.stk T.code.length k (T.hid k) s c).1.code ∧
    (atomicStmt T.hs T.opt T.O T.E.Γ T.E.loc T.E.stk T.code.length k (T.hid k) s c).1.st ≤ T.gen.st ∧
    T.P[q + 1 + (atomicStmt T.hs T.opt T.O T.E.Γ T.E.loc T.E.stk T.code.length k (T.hid k) s c).1.code.length]? = some (.lab (.name (k + 1))) := by
  obtain ⟨-, -, -, h4⟩ := atomicFrom_at T.hs T.opt T.O T.E.Γ T.E.loc T.E.stk T.code.length T.hid T.P T.code 0 T.c 0 (codeAt_self T.P)
  obtain ⟨q, c, h5⟩ := h4 k s h
  rw [Nat.zero_add] at h5
  exact ⟨q, c, h5⟩

theorem last_at : T.P[T.P.length - 1]? = some (.lab (.name T.code.length)) ∧ 0 < T.P.length := by
  obtain ⟨h1, -, h3, -⟩ := atomicFrom_at T.hs T.opt T.O T.E.Γ T.E.loc T.E.stk T.code.length T.hid T.P T.code 0 T.c 0 (codeAt_self T.P)
  rw [Nat.zero_add, Nat.zero_add] at h1
  exact ⟨h1, h3⟩

theorem first_at : T.P[0]? = some (.lab (.name 0)) :=
  (atomicFrom_at T.hs T.opt T.O T.E.Γ T.E.loc T.E.stk T.code.length T.hid T.P T.code 0 T.c 0 (codeAt_self T.P)).2.1

theorem label_at (k : Nat) (hk : k ≤ T.code.length) : ∃ q : Nat, T.P[q]? = some (Line.lab (.name k)) := by
  rcases Nat.lt_or_ge k T.code.length with h | h
  · obtain ⟨q, _, h, _⟩ := stmt_at (T := T) k _ (List.getElem?_eq_getElem h)
    exact ⟨q, h⟩
  · rw [Nat.le_antisymm hk h]; exact ⟨_, last_at.1⟩

/-- An expression of the program evaluated with the hidden variables. -/
theorem ceval_hid {e : Expr} {σ τ σ' : Store} {v : Int} (hv : ∀ x ∈ e.vars, ¬ T.Hidden x) (hs : T.Sees σ τ) (h : ceval T.E.Γ e σ = .ok (v, σ')) :
    ∃ τ', ceval T.E.Γ e τ = .ok (v, τ') ∧ T.Sees σ' τ' ∧ ∀ x, T.Hidden x → τ' x = τ x := by
  obtain ⟨τ', h1, h2⟩ := ceval_frame T.E.Γ _ e σ τ σ' v hv hs h
  exact ⟨τ', h1, h2, fun x hx => ceval_keeps T.E.Γ e τ τ' v h1 x fun hm => hv x hm hx⟩

theorem ceval_range {Γ : Nat → CTy} (hs : HostShift) (opt : Bool) {e : Expr} (hw : e.Wf) {τ τ1 : Store} {v : Int} (hτ : StoreOk Γ τ) (hv : ceval Γ e τ = .ok (v, τ1)) :
    InRange (e.ty Γ) v ∧ StoreOk Γ τ1 := by
  have := (build_impl (Γ := Γ) (nt := ty_int) (acc := 0) hs opt (by decide) e hw).range (by decide) τ hτ hv
  rwa [cty_ity] at this

/-- The operation `g op= e` as statement number `k` of the thread. -/
def op (T : Thr) (k : Nat) (post : Bool) (g : Nat) (op : BinOp) (e : Expr) (c pc : Nat) : Rmw :=
  { E := T.E, P := T.P, hs := T.hs, opt := T.opt, O := T.O, cont := T.code.length + 1 + 2 * k, brk := T.code.length + 2 + 2 * k,
    h := T.hid k, post := post, g := g, op := op, e := e, c := c, pc := pc }

/-- From the end of an operation the thread gets to the next statement, with the result in `r`. -/
def Cont (T : Thr) (k : Nat) (r : Option Nat) (X : Rmw) (σ : Store) (s : St) : Prop :=
  ∀ s' τ, Eff X.E X.gp X.st s s' → Lives X.E τ s' → T.Sees σ τ → Reps X.t (τ (X.h (if X.post then 2 else 3))) (s'.r .ax) →
    ∃ q s'' τ', Runs T.E.sym T.P (X.pE, s') (q, s'') ∧ T.P[q]? = some (.lab (.name (k + 1))) ∧ Lives T.E τ' s'' ∧
      T.Sees (assign T.E.Γ σ r (τ (X.h (if X.post then 2 else 3)))) τ'

theorem Cont.eff {k : Nat} {r : Option Nat} {X : Rmw} {σ : Store} {s s1 : St} (h : Cont T k r X σ s) (e : Eff X.E X.gp X.st s s1) : Cont T k r X σ s1 :=
  fun s' τ e' => h s' τ (e.trans e')

/-- Where a thread can be between its accesses to shared memory, when its program is at `(k, σ)`. The
first argument bounds the number of such places it gets to before it does the statement, when the
objects have the given values and do not change. -/
inductive Check (T : Thr) : (Store → Nat) → Nat × Store → Nat × St → Prop
  | bnd (k : Nat) (σ τ : Store) (q : Nat) (s : St) (hq : T.P[q]? = some (.lab (.name k))) (hk : k ≤ T.code.length) (hl : Lives T.E τ s) (hs : T.Sees σ τ) :
    Check T (fun _ => 3) (k, σ) (q, s)
  | load (k r g : Nat) (σ τ : Store) (q : Nat) (s : St) (hc : T.code[k]? = some (.load r g)) (hq : T.P[q]? = some (.lab (.name k))) (hl : Lives T.E τ s)
    (hs : T.Sees σ τ) : Check T (fun _ => 1) (k, σ) (q + 1, s)
  | xchg (k g : Nat) (e : Expr) (σ σ' τ : Store) (v : Int) (q : Nat) (s : St) (hc : T.code[k]? = some (.store g e)) (hv : ceval T.E.Γ e σ = .ok (v, σ'))
    (h1 : T.P[q]? = some (.xchgm (ity (T.O g)).size .ax (.tmp 0))) (h2 : T.P[q + 1]? = some (.lab (.name (k + 1)))) (hl : Lives T.E τ s) (hs : T.Sees σ' τ)
    (hax : Low (ity (T.O g)).size (CTy.conv (T.O g) v) (s.r .ax)) (ht : s.r (.tmp 0) = T.E.sym g) : Check T (fun _ => 1) (k, σ) (q, s)
  | read (k : Nat) (r : Option Nat) (post : Bool) (g : Nat) (o : BinOp) (e : Expr) (c pc : Nat) (σ σ' τ : Store) (v : Int) (s : St)
    (hc : T.code[k]? = some (.rmw r post g o e)) (hX : (T.op k post g o e c pc).Ok) (hv : ceval T.E.Γ e σ = .ok (v, σ'))
    (hl : Lives T.E τ s) (hs : T.Sees σ' τ) (t0 : τ (T.hid k 0) = (T.op k post g o e c pc).addr) (t1 : τ (T.hid k 1) = v)
    (hax : s.r .ax = T.E.sym g) (ht : s.r (.tmp 0) = T.E.addr (T.hid k 2)) (hK : Cont T k r (T.op k post g o e c pc) σ' s) :
    Check T (fun _ => 2) (k, σ) ((T.op k post g o e c pc).pL, s)
  | cas (k : Nat) (r : Option Nat) (post : Bool) (g : Nat) (o : BinOp) (e : Expr) (c pc : Nat) (σ σ' τ : Store) (v x w : Int) (s : St)
    (hc : T.code[k]? = some (.rmw r post g o e)) (hX : (T.op k post g o e c pc).Ok) (hv : ceval T.E.Γ e σ = .ok (v, σ')) (hx : InRange (T.O g) x)
    (hw : binop o (T.O g) (e.ty T.E.Γ) x v = .ok w)
    (hl : Lives T.E τ s) (hs : T.Sees σ' τ) (t0 : τ (T.hid k 0) = (T.op k post g o e c pc).addr) (t1 : τ (T.hid k 1) = v) (t2 : τ (T.hid k 2) = x)
    (t3 : τ (T.hid k 3) = CTy.conv (T.O g) w) (hax : Low (ity (T.O g)).size x (s.r .ax)) (hdx : Low (ity (T.O g)).size (CTy.conv (T.O g) w) (s.r .dx))
    (ht : s.r (.tmp 0) = T.E.addr (T.hid k 2)) (hu : s.r (.tmp 1) = T.E.sym g) (hK : Cont T k r (T.op k post g o e c pc) σ' s) :
    Check T (fun A => if A g = x then 1 else 2) (k, σ) ((T.op k post g o e c pc).pX, s)
  | fin (σ τ : Store) (s : St) (hl : Lives T.E τ s) (hs : T.Sees σ τ) : Check T (fun _ => 0) (T.code.length, σ) (T.P.length, s)

/-- The thread gets to such a place without an access to shared memory. -/
def Inv (T : Thr) (m : Store → Nat) (st : Nat × Store) (c : Nat × St) : Prop := ∃ c', Runs T.E.sym T.P c c' ∧ Check T m st c'

theorem Check.inv {m : Store → Nat} {st : Nat × Store} {c : Nat × St} (h : Check T m st c) : Inv T m st c := ⟨c, Runs.refl _ _ _, h⟩

theorem Inv.of_gets {gp st pc pc' : Nat} {s : St} {Q : St → Prop} {m : Store → Nat} {k : Nat × Store} (h : Gets T.E T.P gp st pc s pc' Q)
    (hc : ∀ s', Eff T.E gp st s s' → Q s' → Inv T m k (pc', s')) : Inv T m k (pc, s) := by
  obtain ⟨s', r, e, q⟩ := h
  obtain ⟨c, r', h'⟩ := hc s' e q
  exact ⟨c, r.trans r', h'⟩

/-! ### The statements without accesses -/

theorem Sees.set {σ τ : Store} (h : T.Sees σ τ) {x : Nat} (hx : T.Hidden x) (v : Int) : T.Sees σ (τ.set x v) := AgreeOn.set_right h (fun hn => hn hx) v

theorem hidden (k i : Nat) (hi : i < 4) : T.Hidden (T.hid k i) := ⟨k, i, hi, rfl⟩

theorem ready (h : T.Ok) {k : Nat} {s : Stmt} (hc : T.code[k]? = some s) {e : Expr} (he : s.expr = some e) (hev : ∀ x ∈ e.vars, x ∈ s.vars) {τ : Store} {m : St}
    (hl : Lives T.E τ m) : Ready T.E T.opt e τ m :=
  ⟨(h.stmts k s hc).wf e he, fun x hx => ((h.stmts k s hc).vars x (hev x hx)).1, (h.stmts k s hc).seq e he, hl.sok, hl.bp, hl.rel⟩

theorem lt_of_code {k : Nat} {s : Stmt} (h : T.code[k]? = some s) : k < T.code.length := (List.getElem?_eq_some_iff.1 h).1

theorem run_run (h : T.Ok) {k : Nat} {e : Expr} (hc : T.code[k]? = some (.run e)) {σ σ' τ : Store} {v : Int} {q : Nat} {s : St}
    (hq : T.P[q]? = some (.lab (.name k))) (hl : Lives T.E τ s) (hs : T.Sees σ τ) (hv : ceval T.E.Γ e σ = .ok (v, σ')) : Inv T (fun _ => 3) (k + 1, σ') (q + 1, s) := by
  obtain ⟨q', c, h1, h2, h3, h4⟩ := stmt_at (T := T) k _ hc
  have := uniq T _ _ _ hq h1
  subst this
  obtain ⟨τ', hv', hs', -⟩ := ceval_hid (fun x hx => ((h.stmts k _ hc).vars x hx).2) hs hv
  have hr := ready h hc (e := e) rfl (fun _ hx => hx) hl
  have := compileVoid_ok h.env (uniq T) T.hs e τ τ' s v c hr hv' (Nat.le_trans h3 h.room)
  refine Inv.of_gets (gets_does this h2 (Nat.le_refl _) (Nat.le_refl _) rfl) fun s' e' q' => ?_
  exact (Check.bnd (k + 1) σ' τ' _ s' h4 (lt_of_code hc) ⟨(ceval_range T.hs T.opt hr.wf hl.sok hv').2, e'.bp.trans hl.bp, q'⟩ hs').inv

theorem run_branch (h : T.Ok) {k : Nat} {e : Expr} {j : Nat} (hc : T.code[k]? = some (.branch e j)) {σ σ' τ : Store} {v : Int} {q : Nat} {s : St}
    (hq : T.P[q]? = some (.lab (.name k))) (hl : Lives T.E τ s) (hs : T.Sees σ τ) (hv : ceval T.E.Γ e σ = .ok (v, σ')) :
    Inv T (fun _ => 3) (if v ≠ 0 then j else k + 1, σ') (q + 1, s) := by
  obtain ⟨q', c, h1, h2, h3, h4⟩ := stmt_at (T := T) k _ hc
  have := uniq T _ _ _ hq h1
  subst this
  obtain ⟨τ', hv', hs', -⟩ := ceval_hid (fun x hx => ((h.stmts k _ hc).vars x hx).2) hs hv
  have hr := ready h hc (e := e) rfl (fun _ hx => hx) hl
  have hj : j ≤ T.code.length := (h.stmts k _ hc).target e j rfl
  obtain ⟨qj, hqj⟩ := label_at (T := T) j hj
  obtain ⟨s', r', e', q'⟩ := compileCond_ok h.env (uniq T) T.hs true (.name j) e τ τ' s v c hr hv' (Nat.le_trans h3 h.room) (q + 1) qj h2 (find_of_at T.P (uniq T) _ _ hqj)
  have hl' : Lives T.E τ' s' := ⟨(ceval_range T.hs T.opt hr.wf hl.sok hv').2, e'.bp.trans hl.bp, q'⟩
  by_cases hv0 : v = 0
  · rw [if_neg (by simpa using hv0)]
    rw [if_neg (by simp [hv0])] at r'
    exact ⟨_, r', .bnd (k + 1) σ' τ' _ s' h4 (lt_of_code hc) hl' hs'⟩
  · rw [if_pos hv0]
    rw [if_pos (by simp [hv0])] at r'
    exact ⟨_, r', .bnd j σ' τ' _ s' hqj hj hl' hs'⟩

/-! ### Loads and stores -/

theorem width_bytes (t : CTy) (h : t ≠ .bool) : t.width = 8 * (ity t).size := by cases t <;> first | rfl | exact absurd rfl h

/-- The value loaded is stored in the variable. -/
theorem run_load (h : T.Ok) {k r g : Nat} (hc : T.code[k]? = some (.load r g)) {σ τ : Store} {x : Int} {q : Nat} {s : St}
    (hq : T.P[q]? = some (.lab (.name k))) (hl : Lives T.E τ s) (hs : T.Sees σ τ) (hdx : Low (ity (T.E.Γ r)).size x (s.r .dx)) :
    Inv T (fun _ => 3) (k + 1, σ.set r (CTy.conv (T.E.Γ r) x)) (q + 1 + 1, s) := by
  obtain ⟨q', c, h1, h2, h3, h4⟩ := stmt_at (T := T) k _ hc
  have := uniq T _ _ _ hq h1
  subst this
  obtain ⟨hr, hrh⟩ := (h.stmts k _ hc).vars r (List.mem_singleton.2 rfl)
  obtain ⟨hb, -⟩ : T.E.Γ r ≠ .bool ∧ _ := (h.stmts k _ hc).fine
  have hlow : Low (ity (T.E.Γ r)).size (CTy.conv (T.E.Γ r) x) (s.r .dx) := hdx.conv _ hb (Nat.le_of_eq (width_bytes _ hb).symm)
  unfold atomicStmt at h2 h4
  simp only [lines] at h2 h4
  rw [codeAt_two] at h2
  have hea := ea_loc h.env hr s hl.bp
  refine Inv.of_gets (gp := 0) (st := 0) (Q := fun s' => Lives T.E (τ.set r (CTy.conv (T.E.Γ r) x)) s')
    (gets_ins (s' := { s with m := wr s.m (ea T.E.sym s (T.E.loc r)) (ity (T.E.Γ r)).size (zx (ity (T.E.Γ r)).size (s.r .dx)) }) rfl h2.2 ?_ ?_) fun s' _ hl' => ?_
  · refine eff_var h.env hr _ _ (zx (ity (T.E.Γ r)).size (s.r .dx)) ?_ fun r _ => rfl
    dsimp only
    rw [hea, T.E.size_eq]
  · refine ⟨StoreOk.set hl.sok _ _ (conv_range _ _), hl.bp, ?_⟩
    dsimp only
    rw [hea, ← T.E.size_eq]
    rw [← T.E.size_eq] at hlow
    exact rel_set h.env hl.rel hr _ _ hlow.zx
  · exact (Check.bnd (k + 1) _ _ _ s' h4 (lt_of_code hc) hl' (AgreeOn.set hs r _)).inv

/-- Up to the exchange of a store. -/
theorem run_store (h : T.Ok) {k g : Nat} {e : Expr} (hc : T.code[k]? = some (.store g e)) {σ σ' τ : Store} {v : Int} {q : Nat} {s : St}
    (hq : T.P[q]? = some (.lab (.name k))) (hl : Lives T.E τ s) (hs : T.Sees σ τ) (hv : ceval T.E.Γ e σ = .ok (v, σ')) : Inv T (fun _ => 1) (k, σ) (q + 1, s) := by
  obtain ⟨q', c, h1, h2, h3, h4⟩ := stmt_at (T := T) k _ hc
  have := uniq T _ _ _ hq h1
  subst this
  obtain ⟨hd, hty⟩ := (h.stmts k _ hc).tmp g e rfl
  obtain ⟨τ', hv', hs', -⟩ := ceval_hid (fun x hx => ((h.stmts k _ hc).vars x hx).2) hs hv
  have hr := ready h hc (e := e) rfl (fun _ hx => hx) hl
  obtain ⟨hvr, hτ'⟩ := ceval_range T.hs T.opt hr.wf hl.sok hv'
  have hK := Nat.le_trans h3 h.room
  unfold atomicStmt at h2 h3 h4 hK
  dsimp only at h2 h3 h4 hK
  rw [st_seq] at hK
  simp only [codeAt_seq, var_code, tmp, slot, inss, lines, pushIns, popIn, GP_SLOTS, rsz, show (0 < 6) = True from by simp, if_true, List.map_cons, List.map_nil,
    List.append_nil, codeAt_append, codeAt_one, List.length_append, List.length_singleton, List.length_map] at h2
  obtain ⟨n1, n2, ⟨n3, n4⟩, n5⟩ := h2
  have hra : Ready T.E T.opt (.assign (T.hid k 0) e) τ s := ⟨hr.wf, fun x hx => by
    rcases List.mem_cons.1 hx with rfl | hx
    · exact hd
    · exact hr.vars x hx, hr.seq, hl.sok, hl.bp, hl.rel⟩
  have hva : ceval T.E.Γ (.assign (T.hid k 0) e) τ = .ok (CTy.conv (T.E.Γ (T.hid k 0)) v, τ'.set (T.hid k 0) (CTy.conv (T.E.Γ (T.hid k 0)) v)) := by
    simp only [ceval, hv', Res.bind_do, Res.bind]
  rw [hty, conv_id _ v hvr] at hva
  have := compileVoid_ok h.env (uniq T) T.hs _ τ _ s _ c hra hva hK.1
  refine Inv.of_gets (gets_does (gp := (compileVoid T.hs T.opt T.E.Γ T.E.loc T.E.stk (.assign (T.hid k 0) e) c).1.gp + 1) this n1 (by omega) (Nat.le_refl _) rfl) fun s1 e1 q1 => ?_
  have hl1 : Lives T.E (τ'.set (T.hid k 0) v) s1 := ⟨StoreOk.set hτ' _ _ (by rw [hty]; exact hvr), e1.bp.trans hl.bp, q1⟩
  refine Inv.of_gets (gp := 1) (st := 0) (gets_setR (Q := fun s' => Lives T.E (τ'.set (T.hid k 0) v) s' ∧ s'.r .ax = T.E.sym g) .ax _ rfl n2 (Or.inl scratch_ax)
    ⟨hl1.congr rfl (setR_other _ _ _ _ (by simp)), ?_⟩) fun s2 _ q2 => ?_
  · rw [setR_same]; rfl
  refine Inv.of_gets (gp := 1) (st := 0) (gets_setR (Q := fun s' => Lives T.E (τ'.set (T.hid k 0) v) s' ∧ s'.r (.tmp 0) = T.E.sym g) (.tmp 0) _ rfl n3 (Or.inr ⟨0, by omega, rfl⟩)
    ⟨q2.1.congr rfl (setR_other _ _ _ _ (by simp)), ?_⟩) fun s3 _ q3 => ?_
  · rw [setR_same, put_of_rop 8 _ _ (Or.inr rfl)]
    simp only [X86.get, zx8, q2.2]
  refine Inv.of_gets (gets_var (gp := 1) (st := 0) h.env (uniq T) T.hs T.opt q3.1 hd n4) fun s4 _ ⟨m4, k4, p4⟩ => ?_
  rw [set_eq, hty] at p4
  have hsz := size_cases (ity (T.O g))
  refine (Check.xchg k g e σ σ' (τ'.set (T.hid k 0) v) v _ s4 hc hv ?_ ?_ (q3.1.congr m4 (k4 _ nbp)) (hs'.set (hidden k 0 (by omega)) v) ?_ ?_).inv
  · rw [← n5]; congr 1
    omega
  · rw [← h4]; congr 1
    simp only [len_seq, var_code, tmp, slot, inss, lines, pushIns, popIn, GP_SLOTS, rsz, show (0 < 6) = True from by simp, if_true, List.map_cons, List.map_nil,
      List.append_nil, List.length_append, List.length_singleton, List.length_map]
    omega
  · rcases (h.stmts k _ hc).fine with ⟨b1, b2⟩ | ⟨b1, b2⟩
    · rw [b1, conv_id _ v (by rw [← b2]; exact hvr)]
      rw [b2] at p4
      exact p4.low
    · refine Low.conv ?_ _ b1 (Nat.le_of_eq (width_bytes _ b1).symm)
      rcases b2 with b2 | b2
      · rw [bytes_size] at b2
        exact p4.low4.mono b2 (by omega)
      · rw [bytes_size] at b2
        have := p4.low
        rw [b2] at this
        exact this.mono (by omega) (by omega)
  · rw [k4 _ (ntmp 0), q3.2]

end Atomic.Thr
end Slimcc
