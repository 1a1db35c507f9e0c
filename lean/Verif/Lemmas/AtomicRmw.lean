import Verif.Lemmas.AtomicThr
/-! One thread: read-modify-write operations. -/
set_option autoImplicit false
namespace Slimcc
open Slimcc.Spec Slimcc.Spec.CTy Slimcc.Ty Slimcc.X86 Slimcc.Gen Slimcc.Atomic

namespace Atomic.Thr
variable {T : Thr}

/-- Up to the load of the object. -/
theorem enter {k : Nat} {r : Option Nat} {post : Bool} {g : Nat} {o : BinOp} {e : Expr} {c pc : Nat} {σ σ' τ : Store} {v : Int} {s : St}
    (hc : T.code[k]? = some (.rmw r post g o e)) (hX : (T.op k post g o e c pc).Ok) (hev : ∀ x ∈ e.vars, ¬ T.Hidden x) (hv : ceval T.E.Γ e σ = .ok (v, σ'))
    (hl : Lives T.E τ s) (hs : T.Sees σ τ) (hK : Cont T k r (T.op k post g o e c pc) σ' s) : Inv T (fun _ => 2) (k, σ) (pc, s) := by
  obtain ⟨τ1, hv', hs', hh⟩ := ceval_hid hev (hs.set (hidden k 0 (by omega)) (T.op k post g o e c pc).addr) hv
  refine Inv.of_gets (Rmw.run_A hX hl hv') fun s1 e1 ⟨hl1, hax, ht⟩ => ?_
  have hne : T.hid k 0 ≠ T.hid k 1 := fun e => absurd (hX.inj 0 1 (by omega) (by omega) e) (by omega)
  refine (Check.read k r post g o e c pc σ σ' _ v s1 hc hX hv hl1 (hs'.set (hidden k 1 (by omega)) v) ?_ set_eq hax ht (hK.eff e1)).inv
  show (τ1.set (T.hid k 1) v) (T.hid k 0) = _
  rw [set_ne hne, hh _ (hidden k 0 (by omega)), set_eq]

theorem res_ty {k : Nat} {post : Bool} {g : Nat} {o : BinOp} {e : Expr} {c pc : Nat} (hX : (T.op k post g o e c pc).Ok) :
    T.E.Γ (T.hid k (if post then 2 else 3)) = T.O g := by
  split
  · exact hX.ty2
  · exact hX.ty3

/-- The result of an operation is converted. -/
theorem run_cast {k : Nat} {post : Bool} {g : Nat} {o : BinOp} {e : Expr} {c pc : Nat} (hX : (T.op k post g o e c pc).Ok) {r : Nat} (hb : T.E.Γ r ≠ .bool)
    {τ : Store} {s : St} (hl : Lives T.E τ s) (hr : Reps (ity (T.O g)) (τ (T.hid k (if post then 2 else 3))) (s.r .ax)) {p : Nat}
    (hc : CodeAt T.P p ((castIns (ity (T.O g)) (ity (T.E.Γ r))).map .ins)) :
    Gets T.E T.P 0 0 p s (p + (castIns (ity (T.O g)) (ity (T.E.Γ r))).length)
      fun s' => s'.m = s.m ∧ (∀ q, ¬ Scratch q → s'.r q = s.r q) ∧ Low (ity (T.E.Γ r)).size (CTy.conv (T.E.Γ r) (τ (T.hid k (if post then 2 else 3)))) (s'.r .ax) := by
  have hbk : (ity (T.E.Γ r)).kind ≠ .bool := fun h => hb (by have := (cty_bool _).2 h; rwa [cty_ity] at this)
  have hrg : InRange (cty (ity (T.O g))) (τ (T.hid k (if post then 2 else 3))) := by
    rw [cty_ity, ← res_ty hX]; exact hl.sok _
  obtain ⟨s1, a, b, d, f⟩ := cast_calc (E := T.E) (ity (T.O g)) (ity (T.E.Γ r)) _ s (ity_wf _) (ity_wf _) hbk hrg hr
  rw [cty_ity] at f
  exact ⟨s1, runs_execs T.P T.E.sym _ s s1 a p hc, (Calc.eff b d).mono (Nat.zero_le _) (Nat.zero_le _), b, d, f.low⟩

/-- An operation whose result is assigned. -/
theorem run_some (h : T.Ok) (b : Bool) {k r : Nat} {post : Bool} {g : Nat} {o : BinOp} {e : Expr} {c q : Nat} {σ σ' τ : Store} {v : Int} {s : St}
    (hc : T.code[k]? = some (.rmw (some r) post g o e)) (hX : ∀ pc, CodeAt T.P pc ((T.op k post g o e c pc).code c).1.code → ((T.op k post g o e c pc).code c).1.st ≤ T.E.K → (T.op k post g o e c pc).Ok)
    (hev : ∀ x ∈ e.vars, ¬ T.Hidden x) (hd : T.E.dom r) (hb : T.E.Γ r ≠ .bool)
    (hv : ceval T.E.Γ e σ = .ok (v, σ')) (hl : Lives T.E τ s) (hs : T.Sees σ τ)
    (hcode : CodeAt T.P q (setVar T.E.loc T.E.stk b (ity (T.E.Γ r)) r ((T.op k post g o e c 0).code ;; inss (castIns (ity (T.O g)) (ity (T.E.Γ r)))) c).1.code)
    (hK : (setVar T.E.loc T.E.stk b (ity (T.E.Γ r)) r ((T.op k post g o e c 0).code ;; inss (castIns (ity (T.O g)) (ity (T.E.Γ r)))) c).1.st ≤ T.E.K)
    (hend : T.P[q + (setVar T.E.loc T.E.stk b (ity (T.E.Γ r)) r ((T.op k post g o e c 0).code ;; inss (castIns (ity (T.O g)) (ity (T.E.Γ r)))) c).1.code.length]? =
      some (.lab (.name (k + 1)))) : Inv T (fun _ => 2) (k, σ) (q, s) := by
  unfold setVar at hcode hK hend
  cases b with
  | true =>
    rw [if_pos rfl] at hcode hK hend
    simp only [codeAt_seq, len_seq] at hcode hend
    obtain ⟨⟨c1, c2⟩, c3⟩ := hcode
    rw [st_seq, st_seq] at hK
    have hX := hX q c1 hK.1.1
    refine enter hc hX hev hv hl hs fun s' τ' e' hl' hs' hrep => ?_
    have hl' : Lives T.E τ' s' := hl'
    obtain ⟨s1, r1, e1, m1, k1, p1⟩ := run_cast hX hb hl' hrep c2
    have hl1 := hl'.congr m1 (k1 _ nbp)
    obtain ⟨s2, x2, e2, q2, _⟩ := store_run h.env r _ (T.E.loc r) s1 hd hl1.rel (ea_loc h.env hd s1 hl1.bp) p1
    simp only [inss, lines, List.map_cons, List.map_nil, codeAt_one, List.length_map] at c3
    rw [← Nat.add_assoc] at c3
    have r2 : Runs T.E.sym T.P (q + ((T.op k post g o e c 0).code c).1.code.length + (castIns (ity (T.O g)) (ity (T.E.Γ r))).length, s1)
        (q + ((T.op k post g o e c 0).code c).1.code.length + (castIns (ity (T.O g)) (ity (T.E.Γ r))).length + 1, s2) := Runs.one (by unfold step; simp only [c3, x2, Option.map_some])
    refine ⟨_, s2, _, r1.trans r2, ?_, ⟨StoreOk.set hl'.sok _ _ (conv_range _ _), e2.bp.trans hl1.bp, q2⟩, AgreeOn.set hs' r _⟩
    rw [← hend]
    congr 1
    simp only [inss, lines, List.map_cons, List.map_nil, List.length_map, List.length_singleton]
    omega
  | false =>
    rw [if_neg (by decide)] at hcode hK hend
    -- the body and its depth
    generalize hB : ((T.op k post g o e c 0).code ;; inss (castIns (ity (T.O g)) (ity (T.E.Γ r)))) = B at hcode hK hend
    have hBgp : ((T.op k post g o e c 0).code c).1.gp ≤ (B c).1.gp := by rw [← hB]; exact Nat.le_max_left _ _
    have hBst : ((T.op k post g o e c 0).code c).1.st ≤ (B c).1.st := by rw [← hB]; exact Nat.le_max_left _ _
    rw [st_seq] at hK
    have hKt : (tmp (pushIns T.E.stk true .ax) B (fun l => popIn T.E.stk true l ++ [.mov (ity (T.E.Γ r)).size (.reg .ax) (.mem (.ind (popReg l)))]) c).1.st ≤ T.E.K := hK.2
    simp only [codeAt_seq, len_seq] at hcode hend
    obtain ⟨c1, c2⟩ := hcode
    simp only [inss, lines, List.map_cons, List.map_nil, codeAt_one, List.length_singleton] at c1 c2 hend
    have hK' : slot (B c).1.gp (B c).1.st = .stk (B c).1.st → (B c).1.st < T.E.K := by
      intro e
      unfold tmp at hKt
      dsimp only at hKt
      rw [e] at hKt
      dsimp only at hKt
      omega
    have hstK : (B c).1.st ≤ T.E.K := Nat.le_trans (tmp_gp (pushIns T.E.stk true .ax) B (fun l => popIn T.E.stk true l ++ [.mov (ity (T.E.Γ r)).size (.reg .ax) (.mem (.ind (popReg l)))]) c).2 hKt
    have hcode : (tmp (pushIns T.E.stk true .ax) B (fun l => popIn T.E.stk true l ++ [.mov (ity (T.E.Γ r)).size (.reg .ax) (.mem (.ind (popReg l)))]) c).1.code =
      (pushIns T.E.stk true .ax (slot (B c).1.gp (B c).1.st)).map .ins ++ (B c).1.code ++
        (popIn T.E.stk true (slot (B c).1.gp (B c).1.st) ++ [Ins.mov (ity (T.E.Γ r)).size (.reg .ax) (.mem (.ind (popReg (slot (B c).1.gp (B c).1.st))))]).map Line.ins := rfl
    rw [hcode] at c2 hend
    rw [codeAt_append, codeAt_append] at c2
    obtain ⟨⟨c2, c3⟩, c4⟩ := c2
    simp only [List.length_append, List.length_map] at c3 c4 hend
    have hBlen : (B c).1.code.length = ((T.op k post g o e c 0).code c).1.code.length + (castIns (ity (T.O g)) (ity (T.E.Γ r))).length := by
      rw [← hB, len_seq]; simp only [inss, lines, List.length_map]
    rw [← hB, codeAt_seq] at c3
    obtain ⟨c3, c5⟩ := c3
    rw [hB] at c3 c5
    refine Inv.of_gets (gp := 0) (st := 0) (gets_setR (Q := fun s' => Lives T.E τ s' ∧ s'.r .ax = T.E.addr r) .ax _ rfl c1 (Or.inl scratch_ax)
      ⟨hl.congr rfl (setR_other _ _ _ _ (by simp)), ?_⟩) fun s1 _ q1 => ?_
    · rw [setR_same, ea_loc h.env hd s hl.bp]
    obtain ⟨s2, x2, b2, m2, v2⟩ := push_run h.env .ax (B c).1.gp (B c).1.st s1 q1.1.bp hK'
    have hl2 : Lives T.E τ s2 := ⟨q1.1.sok, b2, m2 _ q1.1.rel⟩
    have hX := hX (q + 1 + (pushIns T.E.stk true .ax (slot (B c).1.gp (B c).1.st)).length) c3 (Nat.le_trans hBst hstK)
    have hin : Inv T (fun _ => 2) (k, σ) (q + 1 + (pushIns T.E.stk true .ax (slot (B c).1.gp (B c).1.st)).length, s2) := by
      refine enter hc hX hev hv hl2 hs fun s' τ' e' hl' hs' hrep => ?_
      have hl' : Lives T.E τ' s' := hl'
      have e' : Eff T.E ((T.op k post g o e c 0).code c).1.gp ((T.op k post g o e c 0).code c).1.st s2 s' := e'
      obtain ⟨s3, r3, e3, m3, k3, p3⟩ := run_cast hX hb hl' hrep c5
      have hl3 := hl'.congr m3 (k3 _ nbp)
      have v3 := saved_eff h.env v2 ((e'.mono hBgp hBst).trans (e3.mono (Nat.zero_le _) (Nat.zero_le _))) hK'
      rw [q1.2] at v3
      generalize slot (B c).1.gp (B c).1.st = l at v3 c4 hend r3
      obtain ⟨s4, x4, r4, m4, o4⟩ := popIn_run l true _ s3 hl3.bp v3
      have hax : s4.r .ax = s3.r .ax := o4 .ax (by cases l <;> simp [popReg])
      have hl4 : Lives T.E τ' s4 := hl3.congr m4 (o4 _ (by cases l <;> simp [popReg]))
      obtain ⟨s5, x5, e5, q5, _⟩ := store_run h.env r (CTy.conv (T.E.Γ r) (τ' (T.hid k (if post then 2 else 3)))) (.ind (popReg l)) s4 hd hl4.rel
        (by simp only [ea, r4]; exact zx8 _) (by rw [hax]; exact p3)
      have r5 := runs_execs T.P T.E.sym (popIn T.E.stk true l ++ [.mov (ity (T.E.Γ r)).size (.reg .ax) (.mem (.ind (popReg l)))]) s3 s5
        (by rw [execs_append, x4]; simp only [Option.bind_some, execs, x5]) _ c4
      have hp : q + 1 + (pushIns T.E.stk true .ax l).length + ((T.op k post g o e c 0).code c).1.code.length + (castIns (ity (T.O g)) (ity (T.E.Γ r))).length =
        q + 1 + ((pushIns T.E.stk true .ax l).length + (B c).1.code.length) := by rw [hBlen]; omega
      rw [← hp] at r5
      refine ⟨_, s5, _, Runs.trans r3 r5, ?_, ⟨StoreOk.set hl'.sok _ _ (conv_range _ _), e5.bp.trans hl4.bp, q5⟩, AgreeOn.set hs' r _⟩
      rw [← hend, hBlen]
      congr 1
      simp only [List.length_append]
      omega
    obtain ⟨c', r', hc'⟩ := hin
    exact ⟨c', (runs_execs T.P T.E.sym _ s1 s2 x2 (q + 1) c2).trans r', hc'⟩

/-- Up to the load of the object. -/
theorem run_rmw (h : T.Ok) {k : Nat} {r : Option Nat} {post : Bool} {g : Nat} {o : BinOp} {e : Expr} (hc : T.code[k]? = some (.rmw r post g o e))
    {σ σ' τ : Store} {v : Int} {q : Nat} {s : St}
    (hq : T.P[q]? = some (.lab (.name k))) (hl : Lives T.E τ s) (hs : T.Sees σ τ) (hv : ceval T.E.Γ e σ = .ok (v, σ')) : Inv T (fun _ => 2) (k, σ) (q + 1, s) := by
  obtain ⟨q', c, h1, h2, h3, h4⟩ := stmt_at (T := T) k _ hc
  have := uniq T _ _ _ hq h1
  subst this
  have hst := h.stmts k _ hc
  have hevr : ∀ x ∈ e.vars, x ∈ (Stmt.rmw r post g o e).vars := fun x hx => List.mem_append_right _ hx
  have hev : ∀ x ∈ e.vars, ¬ T.Hidden x := fun x hx => (hst.vars x (hevr x hx)).2
  obtain ⟨d1, d2, t0, t1, t2, t3⟩ := hst.rmw r post g o e rfl
  have hX : ∀ pc, CodeAt T.P pc ((T.op k post g o e c pc).code c).1.code → ((T.op k post g o e c pc).code c).1.st ≤ T.E.K → (T.op k post g o e c pc).Ok :=
    fun pc hcode hK => ⟨h.env, uniq T, hcode, hK, d1, t0, t1, t2, t3, d2, hst.wf e rfl, fun x hx => (hst.vars x (hevr x hx)).1, hst.seq e rfl,
      fun i hi hm => hev _ hm (hidden k i hi)⟩
  have hK := Nat.le_trans h3 h.room
  cases r with
  | none =>
    have hX := hX (q + 1) h2 hK
    refine enter hc hX hev hv hl hs fun s' τ' e' hl' hs' hrep => ?_
    exact ⟨_, s', τ', Runs.refl _ _ _, h4, hl', hs'⟩
  | some r =>
    obtain ⟨hd, -⟩ := hst.vars r (List.mem_cons_self ..)
    exact run_some h T.opt hc hX hev hd hst.fine hv hl hs h2 hK h4

end Atomic.Thr
end Slimcc
