import Verif.Lemmas.StmtAt
/-! Each step of a statement is done by its code. -/
set_option autoImplicit false
namespace Slimcc
open Slimcc.Spec Slimcc.Spec.CTy Slimcc.Ty Slimcc.X86 Slimcc.Gen

section
variable (X : Cx) (m0 : Word → BitVec 8)

/-- The machine state represents the store; memory outside the function's data is as in `m0`. -/
structure MatchS (σ : Store) (s : St) : Prop where
  sok : StoreOk X.E.Γ σ
  bp : s.r .bp = X.E.bp
  rel : Rel X.E σ s.m
  sp : s.r .sp = X.sp
  out : ∀ a, X.E.Outside X.E.K a → ¬ X.scr a → s.m a = m0 a

/-- The machine is at the point of the function where the C program is. -/
inductive Match : State → Nat × St → Prop
  | run {ctx : List JX} {nm : List Nat} {s : Stmt} {k : Kont} {σ : Store} {pc pc' : Nat} {st : St} : At X ctx nm s pc pc' → ContAt X ctx k pc' →
      MatchS X m0 σ st → Match (.run nm s k σ) (pc, st)
  | done {v : Option Int} {σ : Store} {st : St} : MatchS X m0 σ st → (∀ x, v = some x → InRange X.rty x ∧ InReg X.rty x (st.r .ax)) → Match (.done v σ) (X.ex, st)

end

/-- The work left that needs no instruction. -/
def wgt : Stmt → Nat
  | .expr _ => 2
  | .call _ => 2
  | .seq a b => wgt a + wgt b + 2
  | .if_ _ a => wgt a + 2
  | .ifElse _ a b => wgt a + wgt b + 2
  | .loop (some _) _ _ _ => 2
  | .lab _ s => wgt s + 1
  | _ => 1

def cwgt : Kont → Nat
  | .stop => 0
  | .seq s k => wgt s + 1 + cwgt k
  | .loop _ _ _ _ k | .dowhile _ _ _ k | .switch _ k => cwgt k

def mu : State → Nat
  | .run _ s k _ => wgt s + cwgt k
  | .done _ _ => 0

/-- What the facts about labels and the position of the epilogue are. -/
structure Cx.Ok (X : Cx) : Prop where
  env : X.E.Ok
  uniq : UniqueLabels X.P
  ret : X.P[X.ex]? = some (.lab (.rtn X.rtn))
  run : ∀ n c c', steps X.E.sym X.P n c = some c' → X.R n c c'
  add : ∀ n m a b c, X.R n a b → X.R m b c → X.R (n + m) a c
  call : ∀ (m0 : Word → BitVec 8) (c : CallS) (pc pc' : Nat) (σ σ1 σ2 σ3 : Store) (vs : List Int) (v : Option Int) (s : St), CallAt X pc c pc' → MatchS X m0 σ s →
    cevals X.E.Γ c.args σ = .ok (vs, σ1) → X.O c.fn vs σ1 = some (v, σ2) → c.result X.E.Γ v σ2 = some σ3 → ∃ n s', X.R n (pc, s) (pc', s') ∧ MatchS X m0 σ3 s'

section
variable {X : Cx} {m0 : Word → BitVec 8} (hX : X.Ok)

theorem evalTo_ok {Γ : Nat → CTy} {e : Expr} {σ : Store} {p : Int × Store} (h : evalTo Γ e σ = some p) : ceval Γ e σ = .ok p := by
  unfold evalTo at h
  split at h
  · rename_i r hr
    injection h with h
    rw [hr, h]
  · cases h

theorem argsTo_ok {Γ : Nat → CTy} {as : List Actual} {σ : Store} {p : List Int × Store} (h : argsTo Γ as σ = some p) : cevals Γ as σ = .ok p := by
  unfold argsTo at h
  split at h
  · rename_i r hr
    injection h with h
    rw [hr, h]
  · cases h

theorem MatchS.ready {σ : Store} {s : St} (g : MatchS X m0 σ s) {e : Expr} (he : EOk X e) : Ready X.E X.opt e σ s :=
  ⟨he.1, he.2.1, he.2.2, g.sok, g.bp, g.rel⟩

theorem MatchS.range {σ σ' : Store} {s : St} {v : Int} (g : MatchS X m0 σ s) {e : Expr} (he : EOk X e) (hv : ceval X.E.Γ e σ = .ok (v, σ')) :
    InRange (e.ty X.E.Γ) v ∧ StoreOk X.E.Γ σ' := by
  have := ((g.ready he).impl X.hs).range (by decide) σ g.sok hv
  rwa [cty_ity] at this

theorem MatchS.eff {σ σ' : Store} {s s' : St} {gp st : Nat} (g : MatchS X m0 σ s) (h : StoreOk X.E.Γ σ') (e : Eff X.E gp st s s') (r : Rel X.E σ' s'.m)
    (hK : st ≤ X.E.K) : MatchS X m0 σ' s' :=
  ⟨h, e.bp.trans g.bp, r, e.sp.trans g.sp, fun a ha hs => (e.mem a ha.1 fun k hk => ha.2 k (by omega)).trans (g.out a ha hs)⟩

theorem MatchS.keep {σ : Store} {s s' : St} (g : MatchS X m0 σ s) (h : Keep s s') : MatchS X m0 σ s' :=
  ⟨g.sok, h.2.1.trans g.bp, by rw [h.1]; exact g.rel, h.2.2.2.trans g.sp, by rw [h.1]; exact g.out⟩

include hX in
theorem void_run {pc pc' : Nat} {e : Expr} (h : VoidAt X pc e pc') {σ σ' : Store} {v : Int} {s : St} (g : MatchS X m0 σ s)
    (hv : evalTo X.E.Γ e σ = some (v, σ')) : ∃ s', Runs X.E.sym X.P (pc, s) (pc', s') ∧ MatchS X m0 σ' s' := by
  obtain ⟨he, c, h1, h2, rfl⟩ := h
  obtain ⟨s', r, f, q⟩ := compileVoid_ok hX.env hX.uniq X.hs e σ σ' s v c (g.ready he) (evalTo_ok hv) h2 pc h1
  exact ⟨s', r, g.eff (g.range he (evalTo_ok hv)).2 f q h2⟩

include hX in
theorem optVoid_run {pc pc' : Nat} {e : Option Expr} (h : OptVoidAt X pc e pc') {σ σ' : Store} {s : St} (g : MatchS X m0 σ s)
    (hv : effect X.E.Γ e σ = some σ') : ∃ s', Runs X.E.sym X.P (pc, s) (pc', s') ∧ MatchS X m0 σ' s' := by
  cases e with
  | none =>
    injection hv with hv
    subst hv
    cases h
    exact ⟨s, Runs.refl _ _ _, g⟩
  | some e =>
    unfold effect at hv
    dsimp only at hv
    obtain ⟨⟨v, σ1⟩, h1, h2⟩ := Option.map_eq_some_iff.1 hv
    cases h2
    exact void_run hX h g h1

include hX in
theorem expr_run {pc pc' : Nat} {e : Expr} (h : ExprAt X pc e pc') {σ σ' : Store} {v : Int} {s : St} (g : MatchS X m0 σ s)
    (hv : ceval X.E.Γ e σ = .ok (v, σ')) : ∃ s', Runs X.E.sym X.P (pc, s) (pc', s') ∧ MatchS X m0 σ' s' ∧ InReg (e.ty X.E.Γ) v (s'.r .ax) ∧ InRange (e.ty X.E.Γ) v := by
  obtain ⟨he, c, h1, h2, rfl⟩ := h
  obtain ⟨s', r, f, q⟩ := compileExpr_ok hX.env hX.uniq X.hs e σ σ' s v c (g.ready he) hv h2 pc h1
  exact ⟨s', r, g.eff (g.range he hv).2 f q.1 h2, (reps_inReg _ _ _).1 q.2, (g.range he hv).1⟩

include hX in
theorem cond_run {j : Bool} {l : Label} {pc pc' tgt : Nat} {e : Expr} (h : CondAt X j l pc e pc') (hl : X.P[tgt]? = some (.lab l)) {σ σ' : Store} {v : Int} {s : St}
    (g : MatchS X m0 σ s) (hv : evalTo X.E.Γ e σ = some (v, σ')) :
    ∃ s', Runs X.E.sym X.P (pc, s) (if (j == decide (v ≠ 0)) then tgt else pc', s') ∧ MatchS X m0 σ' s' := by
  obtain ⟨he, c, h1, h2, rfl⟩ := h
  obtain ⟨s', r, f, q⟩ := compileCond_ok hX.env hX.uniq X.hs j l e σ σ' s v c (g.ready he) (evalTo_ok hv) h2 pc tgt h1 (find_of_at _ hX.uniq _ _ hl)
  exact ⟨s', r, g.eff (g.range he (evalTo_ok hv)).2 f q h2⟩

/-- What a C step is answered with. -/
def Answer (X : Cx) (m0 : Word → BitVec 8) (x x' : State) (c : Nat × St) : Prop :=
  ∃ n c', X.R n c c' ∧ Match X m0 x' c' ∧ (n = 0 → mu x' < mu x)

include hX

theorem Answer.plus {x x' : State} {c c' : Nat × St} (h : RunsP X c c') (hm : Match X m0 x' c') : Answer X m0 x x' c := by
  obtain ⟨k, hk⟩ := h
  exact ⟨k + 1, c', hX.run _ _ _ hk, hm, fun h => by omega⟩

theorem Answer.zero {x x' : State} {c c' : Nat × St} (h : Runs X.E.sym X.P c c') (hm : Match X m0 x' c') (hmu : mu x' < mu x) : Answer X m0 x x' c := by
  obtain ⟨k, hk⟩ := h
  exact ⟨k, c', hX.run _ _ _ hk, hm, fun _ => hmu⟩

omit hX in
theorem wgt_pos (s : Stmt) : 0 < wgt s := by unfold wgt; split <;> omega

omit hX in
theorem sameLow_inReg (T : CTy) (v : Int) (x : Word) (h : InReg T v x) : SameLow (swSize (ity T)) x (BitVec.ofInt 64 v) := by
  have h1 := h.1
  unfold SameLow swSize
  cases T <;> simp only [bytes, reduceCtorEq, if_true, if_false, Nat.reduceEqDiff] at h1 <;>
    simp only [ity, ty_bool, ty_pchar, ty_char, ty_uchar, ty_short, ty_ushort, ty_int, ty_uint, ty_long, ty_ulong, ty_llong, ty_ullong, ITy.size, IKind.size, if_true, if_false, Nat.reduceEqDiff] <;>
    exact h1.trans (sw_ofInt _ _ (by decide)).symm

/-- A `switch` goes where C says. -/
theorem switch_sim {ctx : List JX} {nm : List Nat} {e : Expr} {b : Stmt} {k : Kont} {pc pc' : Nat} (h : At X ctx nm (.switch e b) pc pc') (hk : ContAt X ctx k pc')
    {σ σ' : Store} {s : St} {v : Int} (g : MatchS X m0 σ s) (hv : evalTo X.E.Γ e σ = some (v, σ')) :
    ∃ c', RunsP X (pc, s) c' ∧ Match X m0 (.run (dispatch (e.ty X.E.Γ).promote v b nm k).1 (dispatch (e.ty X.E.Γ).promote v b nm k).2.1 (dispatch (e.ty X.E.Γ).promote v b nm k).2.2 σ') c' := by
  cases h with
  | @switch _ _ _ _ cs d brk _ q r w h1 h2 h3 h4 h5 h6 =>
    obtain ⟨s1, r1, g1, hr, hrg⟩ := expr_run hX h1 g (evalTo_ok hv)
    obtain ⟨j1, j2, j3⟩ := switch_run (sym := X.E.sym) cs d brk q s1 h4.inv (bnd_inRange _ _ hrg) (sameLow_inReg _ _ _ hr) h2
    have hfit : ∀ lo hi, .case lo hi ∈ b.labels → (fits (e.ty X.E.Γ).promote v (.case lo hi) = true ↔ cb (ity (e.ty X.E.Γ)) lo ≤ v ∧ v ≤ cb (ity (e.ty X.E.Γ)) hi) :=
      fun lo hi hm => fits_iff _ _ _ _ hrg (h4.ne lo hi hm) (h4.ord lo hi hm)
    unfold dispatch
    cases hf : Spec.find (fits (e.ty X.E.Γ).promote v) false b [] (.switch nm k) with
    | some x =>
      obtain ⟨nm', s', k'⟩ := x
      obtain ⟨ls, u, ctx', q1, q2, a1, a2, a3, a4, a5, a6⟩ := find_at _ _ h5 _ _ _ _ (.switch h6 hk) hf
      obtain ⟨y, hy, hfy⟩ := List.any_eq_true.1 a1
      cases y with
      | user _ => cases hfy
      | dflt => cases hfy
      | case lo hi =>
        have hin := (hfit lo hi ((a6 rfl).2 _ hy)).1 hfy
        obtain ⟨t, cs', d', e1, e2⟩ := a3.case lo hi hy
        rw [(a6 rfl).1] at e1
        simp only [actSw, Option.some.injEq, Prod.mk.injEq] at e1
        obtain ⟨rfl, rfl, rfl⟩ := e1
        obtain ⟨s2, r2, k2⟩ := j1 u q1 (e2 v hin.1 hin.2) (find_of_at _ hX.uniq _ _ a2)
        exact ⟨_, RunsP.after (r1.trans r2) (lab_run a2 s2), .run a4 a5 (g1.keep k2)⟩
    | none =>
      have hno : ∀ x, ¬ Cov (ity (e.ty X.E.Γ)) cs x v := by
        intro x hx
        obtain ⟨lo, hi, hm, hb⟩ := h4.org x v hx
        have := find_none _ _ _ _ hf _ hm
        rw [(hfit lo hi hm).2 hb] at this
        cases this
      dsimp only
      cases hd : Spec.find (· == .dflt) false b [] (.switch nm k) with
      | some x =>
        obtain ⟨nm', s', k'⟩ := x
        obtain ⟨ls, u, ctx', q1, q2, a1, a2, a3, a4, a5, a6⟩ := find_at _ _ h5 _ _ _ _ (.switch h6 hk) hd
        obtain ⟨y, hy, hfy⟩ := List.any_eq_true.1 a1
        have hyd : y = .dflt := by simpa using hfy
        subst hyd
        obtain ⟨t, cs', e1⟩ := a3.dflt hy
        rw [(a6 rfl).1] at e1
        simp only [actSw, Option.some.injEq, Prod.mk.injEq] at e1
        obtain ⟨rfl, rfl, rfl⟩ := e1
        obtain ⟨s2, r2, k2⟩ := j2 u q1 hno rfl (find_of_at _ hX.uniq _ _ a2)
        exact ⟨_, RunsP.after (r1.trans r2) (lab_run a2 s2), .run a4 a5 (g1.keep k2)⟩
      | none =>
        have hdn : d = none := by
          cases d with
          | none => rfl
          | some u =>
            have := find_none _ _ _ _ hd _ (h4.dorg u rfl)
            simp at this
        obtain ⟨s2, r2, k2⟩ := j3 w hno hdn (find_of_at _ hX.uniq _ _ h6)
        exact ⟨_, RunsP.after (r1.trans r2) (lab_run h6 s2), .run .skip hk (g1.keep k2)⟩

/-- Every step of the C program is done by the machine code. -/
theorem step_sim {fn : Stmt} {p0 : Nat} (hfn : At X [] [] fn p0 X.ex) {x x' : State} {c : Nat × St} (hm : Match X m0 x c) (hx : cstep X.O X.E.Γ X.rty fn x = some x') :
    Answer X m0 x x' c := by
  cases hm with
  | done => cases hx
  | @run ctx nm s k σ pc pc' st ha hk g =>
    cases ha with
    | skip =>
      obtain ⟨p, r, n⟩ := cont_norm hX.uniq hk st
      cases k with
      | stop =>
        injection hx with hx; subst hx
        cases n
        exact .zero hX r (.done g (fun _ h => by cases h)) (by simp [mu, wgt, cwgt])
      | seq s k =>
        injection hx with hx; subst hx
        obtain ⟨m, h1, h2⟩ := n
        exact .zero hX r (.run h1 h2 g) (by simp only [mu, wgt, cwgt]; omega)
      | loop cnd n b nm k =>
        obtain ⟨ctx', bg, brk, cont, q, rr, w, rfl, h1, h2, h3, h4, h5, h6, h7, h8⟩ := n
        simp only [cstep, Option.bind_eq_bind] at hx
        obtain ⟨σ', e1, e2⟩ := Option.bind_eq_some_iff.1 hx
        injection e2 with e2; subst e2
        obtain ⟨s1, r1, g1⟩ := optVoid_run hX h5 g e1
        exact .plus hX (RunsP.after (r.trans ((lab_run h4 st).runs.trans r1)) (jmp_runP hX.uniq h6 h1 s1)) (.run (.loop rfl h1 h2 h3 h4 h5 h6 h7) h8 g1)
      | dowhile b cnd nm k =>
        obtain ⟨ctx', bg, brk, cont, q, w, rfl, h1, h2, h3, h4, h5, h6⟩ := n
        simp only [cstep, Option.bind_eq_bind] at hx
        obtain ⟨⟨v, σ'⟩, e1, e2⟩ := Option.bind_eq_some_iff.1 hx
        obtain ⟨s1, r1, g1⟩ := cond_run hX h4 h1 g e1
        dsimp only at e2
        split at e2 <;> rename_i hv
        · injection e2 with e2; subst e2
          rw [if_pos (by simp [hv])] at r1
          exact .plus hX (RunsP.after r ((lab_run h3 st).trans r1)) (.run (.dowhile h1 h2 h3 h4 h5) h6 g1)
        · injection e2 with e2; subst e2
          rw [if_neg (by simpa using hv)] at r1
          exact .plus hX (RunsP.after r ((lab_run h3 st).trans r1)) (.run .skip (.lab h5 h6) g1)
      | switch nm k =>
        injection hx with hx; subst hx
        obtain ⟨ctx', x, brk, rfl, h1, h2⟩ := n
        exact .plus hX (RunsP.after r (lab_run h1 st)) (.run .skip h2 g)
    | expr h1 =>
      simp only [cstep, Option.bind_eq_bind] at hx
      obtain ⟨⟨v, σ'⟩, e1, e2⟩ := Option.bind_eq_some_iff.1 hx
      injection e2 with e2; subst e2
      obtain ⟨s1, r1, g1⟩ := void_run hX h1 g e1
      exact .zero hX r1 (.run .skip hk g1) (by simp only [mu, wgt]; omega)
    | call h1 =>
      simp only [cstep, Option.bind_eq_bind] at hx
      obtain ⟨⟨vs, σ1⟩, e1, hx⟩ := Option.bind_eq_some_iff.1 hx
      obtain ⟨⟨v, σ2⟩, e2, hx⟩ := Option.bind_eq_some_iff.1 hx
      obtain ⟨σ3, e3, e4⟩ := Option.bind_eq_some_iff.1 hx
      injection e4 with e4; subst e4
      obtain ⟨n, s1, r1, g1⟩ := hX.call m0 _ _ _ _ _ _ _ _ _ _ h1 g (argsTo_ok e1) e2 e3
      exact ⟨n, _, r1, .run .skip hk g1, fun _ => by simp only [mu, wgt]; omega⟩
    | seq h1 h2 =>
      injection hx with hx; subst hx
      exact .zero hX (Runs.refl _ _ _) (.run h1 (.seq h2 hk) g) (by simp only [mu, wgt, cwgt]; omega)
    | if_ h1 h2 h3 =>
      simp only [cstep, Option.bind_eq_bind] at hx
      obtain ⟨⟨v, σ'⟩, e1, e2⟩ := Option.bind_eq_some_iff.1 hx
      obtain ⟨s1, r1, g1⟩ := cond_run hX h1 h3 g e1
      dsimp only at e2
      split at e2 <;> rename_i hv
      · injection e2 with e2; subst e2
        rw [if_neg (by simp [hv])] at r1
        exact .zero hX r1 (.run h2 (.lab h3 hk) g1) (by simp only [mu, wgt]; omega)
      · injection e2 with e2; subst e2
        rw [if_pos (by simpa using hv)] at r1
        exact .zero hX r1 (.run .skip (.lab h3 hk) g1) (by simp only [mu, wgt]; omega)
    | ifElse h1 h2 h3 h4 h5 h6 =>
      simp only [cstep, Option.bind_eq_bind] at hx
      obtain ⟨⟨v, σ'⟩, e1, e2⟩ := Option.bind_eq_some_iff.1 hx
      obtain ⟨s1, r1, g1⟩ := cond_run hX h1 h4 g e1
      dsimp only at e2
      split at e2 <;> rename_i hv
      · injection e2 with e2; subst e2
        rw [if_neg (by simp [hv])] at r1
        exact .zero hX r1 (.run h2 (.jmp h3 h6 hk) g1) (by simp only [mu, wgt]; omega)
      · injection e2 with e2; subst e2
        rw [if_pos (by simpa using hv)] at r1
        exact .plus hX (RunsP.after r1 (lab_run h4 s1)) (.run h5 (.lab h6 hk) g1)
    | @loop _ _ i cnd n b bg brk cont _ q rr t w h0 h1 h2 h3 h4 h5 h6 h7 =>
      cases i with
      | some e =>
        simp only [cstep, Option.bind_eq_bind] at hx
        obtain ⟨⟨v, σ'⟩, e1, e2⟩ := Option.bind_eq_some_iff.1 hx
        injection e2 with e2; subst e2
        obtain ⟨s1, r1, g1⟩ := void_run hX h0 g e1
        exact .zero hX r1 (.run (.loop rfl h1 h2 h3 h4 h5 h6 h7) hk g1) (by simp only [mu, wgt]; omega)
      | none =>
        cases h0
        cases cnd with
        | none =>
          injection hx with hx; subst hx
          cases h2
          exact .plus hX (lab_run h1 st) (.run h3 (.loop h1 rfl h3 h4 h5 h6 h7 hk) g)
        | some cnd =>
          simp only [cstep, Option.bind_eq_bind] at hx
          obtain ⟨⟨v, σ'⟩, e1, e2⟩ := Option.bind_eq_some_iff.1 hx
          obtain ⟨s1, r1, g1⟩ := cond_run hX h2 h7 g e1
          dsimp only at e2
          split at e2 <;> rename_i hv
          · injection e2 with e2; subst e2
            rw [if_neg (by simp [hv])] at r1
            exact .plus hX ((lab_run h1 st).trans r1) (.run h3 (.loop h1 h2 h3 h4 h5 h6 h7 hk) g1)
          · injection e2 with e2; subst e2
            rw [if_pos (by simpa using hv)] at r1
            exact .plus hX ((lab_run h1 st).trans r1) (.run .skip (.lab h7 hk) g1)
    | dowhile h1 h2 h3 h4 h5 =>
      injection hx with hx; subst hx
      exact .plus hX (lab_run h1 st) (.run h2 (.dowhile h1 h2 h3 h4 h5 hk) g)
    | switch h1 h2 h3 h4 h5 h6 =>
      simp only [cstep, Option.bind_eq_bind] at hx
      obtain ⟨⟨v, σ'⟩, e1, e2⟩ := Option.bind_eq_some_iff.1 hx
      injection e2 with e2; subst e2
      obtain ⟨c', r, m⟩ := switch_sim hX (.switch h1 h2 h3 h4 h5 h6) hk g e1
      exact .plus hX r m
    | brk h1 h2 =>
      simp only [cstep, Option.bind_eq_bind] at hx
      obtain ⟨k', e1, e2⟩ := Option.bind_eq_some_iff.1 hx
      injection e2 with e2; subst e2
      obtain ⟨j, ctx', q, a1, a2, a3⟩ := cont_brk hk _ e1
      rw [h1] at a1
      injection a1 with a1; subst a1
      exact .plus hX (jmp_over hX.uniq h2 a2 st) (.run .skip a3 g)
    | cont h1 h2 =>
      simp only [cstep, Option.bind_eq_bind] at hx
      obtain ⟨k', e1, e2⟩ := Option.bind_eq_some_iff.1 hx
      injection e2 with e2; subst e2
      obtain ⟨j, ctx', q, a1, a2, a3⟩ := cont_cont hk _ e1
      rw [h1] at a1
      injection a1 with a1; subst a1
      exact .plus hX (jmp_runP hX.uniq h2 a2 st) (.run .skip a3 g)
    | lab0 h1 =>
      injection hx with hx; subst hx
      exact .zero hX (Runs.refl _ _ _) (.run h1 hk g) (by simp only [mu, wgt]; omega)
    | lab h1 h2 h3 =>
      injection hx with hx; subst hx
      exact .plus hX (lab_run h1 st) (.run h3 hk g)
    | @goto _ _ n u _ h1 h2 =>
      simp only [cstep, Option.bind_eq_bind] at hx
      obtain ⟨⟨nm', s', k'⟩, e1, e2⟩ := Option.bind_eq_some_iff.1 hx
      injection e2 with e2; subst e2
      obtain ⟨ls, u', ctx', q1, q2, a1, a2, a3, a4, a5, a6⟩ := find_at _ _ hfn _ _ _ _ .stop e1
      obtain ⟨y, hy, hfy⟩ := List.any_eq_true.1 a1
      have hyd : y = .user n := by simpa using hfy
      subst hyd
      have := a3.user n hy
      rw [h1] at this
      injection this with this; subst this
      exact .plus hX (jmp_over hX.uniq h2 a2 st) (.run a4 a5 g)
    | ret h1 =>
      injection hx with hx; subst hx
      exact .plus hX (jmp_runP hX.uniq h1 hX.ret st) (.done g (fun _ h => by cases h))
    | @retv _ _ e _ q h1 h2 =>
      simp only [cstep, Option.bind_eq_bind] at hx
      obtain ⟨⟨v, σ'⟩, e1, e2⟩ := Option.bind_eq_some_iff.1 hx
      injection e2 with e2; subst e2
      have hc : ceval X.E.Γ (.cast X.rty e) σ = .ok (conv X.rty v, σ') := by
        simp only [ceval, evalTo_ok e1]; rfl
      obtain ⟨s1, r1, g1, hr, _⟩ := expr_run hX h1 g hc
      exact .plus hX (RunsP.after r1 (jmp_runP hX.uniq h2 hX.ret s1)) (.done g1 (fun x h => by injection h with h; subst h; exact ⟨conv_range _ _, hr⟩))

theorem csteps_sim {fn : Stmt} {p0 : Nat} (hfn : At X [] [] fn p0 X.ex) : ∀ (n : Nat) {x x' : State} {c : Nat × St}, Match X m0 x c → csteps X.O X.E.Γ X.rty fn n x = some x' →
    ∃ n c', X.R n c c' ∧ Match X m0 x' c'
  | 0, x, x', c, hm, h => by injection h with h; subst h; exact ⟨0, c, hX.run _ _ _ rfl, hm⟩
  | n + 1, x, x', c, hm, h => by
    simp only [csteps] at h
    obtain ⟨y, e1, e2⟩ := Option.bind_eq_some_iff.1 h
    obtain ⟨j, c1, s1, m1, _⟩ := step_sim hX hfn hm e1
    obtain ⟨k, c2, r2, m2⟩ := csteps_sim hfn n m1 e2
    exact ⟨j + k, c2, hX.add _ _ _ _ _ s1 r2, m2⟩

omit hX in
theorem steps_none {P : List Line} {sym : Nat → Word} {c : Nat × St} : ∀ (j k : Nat), steps sym P j c = none → steps sym P (j + k) c = none := by
  intro j k h
  rw [steps_add, h]; rfl

/-- A C program that goes on for ever keeps the machine busy. -/
theorem forever_sim {fn : Stmt} {p0 : Nat} (hfn : At X [] [] fn p0 X.ex) (n : Nat) : ∀ (w : Nat) {x : State} {c : Nat × St}, mu x ≤ w → Match X m0 x c →
    (∀ k, ∃ y, csteps X.O X.E.Γ X.rty fn k x = some y) → ∃ m c', n ≤ m ∧ X.R m c c' := by
  induction n with
  | zero => exact fun _ {x c} _ _ _ => ⟨0, c, Nat.le_refl _, hX.run _ _ _ rfl⟩
  | succ n ih =>
    intro w
    induction w with
    | zero =>
      intro x c hw hm hf
      obtain ⟨y, hy⟩ := hf 1
      simp only [csteps] at hy
      obtain ⟨z, e1, e2⟩ := Option.bind_eq_some_iff.1 hy
      obtain ⟨j, c1, s1, m1, hj⟩ := step_sim hX hfn hm e1
      have hf' : ∀ k, ∃ y, csteps X.O X.E.Γ X.rty fn k z = some y := fun k => by
        obtain ⟨y, hy⟩ := hf (k + 1)
        simp only [csteps, e1, Option.bind_some] at hy
        exact ⟨y, hy⟩
      obtain ⟨m, c', hmn, hs⟩ := ih (mu z) (Nat.le_refl _) m1 hf'
      by_cases h0 : j = 0
      · have := hj h0; omega
      · exact ⟨j + m, c', by omega, hX.add _ _ _ _ _ s1 hs⟩
    | succ w ihw =>
      intro x c hw hm hf
      obtain ⟨y, hy⟩ := hf 1
      simp only [csteps] at hy
      obtain ⟨z, e1, e2⟩ := Option.bind_eq_some_iff.1 hy
      obtain ⟨j, c1, s1, m1, hj⟩ := step_sim hX hfn hm e1
      have hf' : ∀ k, ∃ y, csteps X.O X.E.Γ X.rty fn k z = some y := fun k => by
        obtain ⟨y, hy⟩ := hf (k + 1)
        simp only [csteps, e1, Option.bind_some] at hy
        exact ⟨y, hy⟩
      by_cases h0 : j = 0
      · have hlt := hj h0
        obtain ⟨m, c', hmn, hs⟩ := ihw (by omega) m1 hf'
        exact ⟨j + m, c', by omega, hX.add _ _ _ _ _ s1 hs⟩
      · obtain ⟨m, c', hmn, hs⟩ := ih (mu z) (Nat.le_refl _) m1 hf'
        exact ⟨j + m, c', by omega, hX.add _ _ _ _ _ s1 hs⟩

end
end Slimcc
