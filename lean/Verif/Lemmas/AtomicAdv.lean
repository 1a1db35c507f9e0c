import Verif.Lemmas.AtomicRmw
/-! One thread: the accesses to shared memory. -/
set_option autoImplicit false
namespace Slimcc
open Slimcc.Spec Slimcc.Spec.CTy Slimcc.Ty Slimcc.X86 Slimcc.Gen Slimcc.Atomic

namespace Atomic.Thr
variable {T : Thr}

/-- The shared memory holds the values of the objects. -/
def Holds (T : Thr) (A : Store) (sh : Word → BitVec 8) : Prop := Rel (objEnv T.O T.objs T.E.sym) A sh

theorem obj_rd {A : Store} {sh : Word → BitVec 8} (h : T.Holds A sh) {g : Nat} (hg : T.objs g) (k : Nat) (hk : k ≤ (ity (T.O g)).size) :
    rd sh (T.E.sym g) k = zx k (BitVec.ofInt 64 (A g)) :=
  rd_var (E := objEnv T.O T.objs T.E.sym) h hg k (by rw [Env.size_eq]; exact hk)

/-- Values of a type that are the same in memory are the same. -/
theorem same_value (t : CTy) {x y : Int} (hx : InRange t x) (hy : InRange t y)
    (h : zx (ity t).size (BitVec.ofInt 64 x) = zx (ity t).size (BitVec.ofInt 64 y)) : x = y := by
  have h8 := (size_le (ity t)).1
  have hl : Low (ity t).size y (BitVec.ofInt 64 x) := Low.of_zx_eq h8 h
  have hx' : Low (ity t).size x (BitVec.ofInt 64 x) := Low.of_eq _ _ h8
  unfold Low at hl hx'
  rw [hx'] at hl
  have := congrArg BitVec.toNat hl
  simp only [BitVec.toNat_ofInt] at this
  clear h hl hx' h8
  cases t <;> simp only [range_bool, range_char, range_schar, range_uchar, range_short, range_ushort, range_int, range_uint, range_long, range_ulong, range_llong, range_ullong] at hx hy <;>
    (have e : ∀ n : Nat, ((2 ^ n : Nat) : Int) = 2 ^ n := fun n => by simp) <;> dsimp only [ity] at this <;> simp only [e] at this <;> revert this <;>
    first
    | (show (x % 2 ^ 8).toNat = (y % 2 ^ 8).toNat → _; omega)
    | (show (x % 2 ^ 16).toNat = (y % 2 ^ 16).toNat → _; omega)
    | (show (x % 2 ^ 32).toNat = (y % 2 ^ 32).toNat → _; omega)
    | (show (x % 2 ^ 64).toNat = (y % 2 ^ 64).toNat → _; omega)

theorem not_end {q : Nat} {l : Line} (h : T.P[q]? = some l) : q < T.P.length := (List.getElem?_eq_some_iff.1 h).1

theorem sem_rmw {O Γ : Nat → CTy} {A σ : Store} {k : Nat} {r : Option Nat} {post : Bool} {g : Nat} {o : BinOp} {e : Expr} {x : Store × Nat × Store}
    (h : (Stmt.rmw r post g o e).sem O Γ A k σ = .ok x) : ∃ v σ' w, ceval Γ e σ = .ok (v, σ') ∧ binop o (O g) (e.ty Γ) (A g) v = .ok w := by
  simp only [Stmt.sem, Res.bind_do, bind_ok_iff] at h
  obtain ⟨⟨v, σ'⟩, h1, w, h2, _⟩ := h
  exact ⟨v, σ', w, h1, h2⟩

theorem sem_rmw_eq {O Γ : Nat → CTy} {A σ σ' : Store} {k : Nat} {r : Option Nat} {post : Bool} {g : Nat} {o : BinOp} {e : Expr} {v w : Int}
    (h1 : ceval Γ e σ = .ok (v, σ')) (h2 : binop o (O g) (e.ty Γ) (A g) v = .ok w) :
    (Stmt.rmw r post g o e).sem O Γ A k σ = .ok (A.set g (CTy.conv (O g) w), k + 1, assign Γ σ' r (if post then A g else CTy.conv (O g) w)) := by
  simp only [Stmt.sem, h1, Res.bind_do, ok_bind, h2]

/-- What a thread does at such a place: it gets to the next one, or does the statement. -/
def Moves (T : Thr) (m : Store → Nat) (st : Nat × Store) (A : Store) (sh sh' : Word → BitVec 8) (c1 : Nat × St) : Prop :=
  (sh' = sh ∧ ∃ m', m' A < m A ∧ Inv T m' st c1) ∨
  ∃ s A' st' m', T.code[st.1]? = some s ∧ s.sem T.O T.E.Γ A st.1 st.2 = .ok (A', st') ∧ T.Holds A' sh' ∧ Inv T m' st' c1

theorem tstep_lab {sym : Nat → Word} {P : List Line} {q : Nat} {l : Label} (h : P[q]? = some (.lab l)) (sh : Word → BitVec 8) (s : St) : tstep sym P sh (q, s) = some (sh, q + 1, s) := by
  unfold tstep step
  simp only [h, Option.map_some]

theorem adv (h : T.Ok) (hO : (objEnv T.O T.objs T.E.sym).Ok) {m : Store → Nat} {st : Nat × Store} {c : Nat × St} {A : Store} {sh : Word → BitVec 8} (hA : StoreOk T.O A)
    (hR : T.Holds A sh) (hc : Check T m st c) (hd : ∀ s, T.code[st.1]? = some s → ∃ r, s.sem T.O T.E.Γ A st.1 st.2 = .ok r) :
    T.P.length ≤ c.1 ∨ ∃ sh' c1, tstep T.E.sym T.P sh c = some (sh', c1) ∧ Moves T m st A sh sh' c1 := by
  cases hc with
  | fin σ τ s hl hs => exact Or.inl (Nat.le_refl _)
  | bnd k σ τ q s hq hk hl hs =>
    refine Or.inr ⟨sh, (q + 1, s), tstep_lab hq sh s, ?_⟩
    rcases Nat.lt_or_ge k T.code.length with hlt | hge
    · have hc := List.getElem?_eq_getElem hlt
      generalize T.code[k] = st at hc
      obtain ⟨x, hx⟩ := hd st hc
      cases st with
      | run e =>
        simp only [Stmt.sem, Res.bind_do, bind_ok_iff] at hx
        obtain ⟨⟨v, σ'⟩, hv, -⟩ := hx
        refine Or.inr ⟨_, A, (k + 1, σ'), _, hc, ?_, hR, run_run h hc hq hl hs hv⟩
        simp only [Stmt.sem, hv, Res.bind_do, ok_bind]
      | branch e j =>
        simp only [Stmt.sem, Res.bind_do, bind_ok_iff] at hx
        obtain ⟨⟨v, σ'⟩, hv, -⟩ := hx
        refine Or.inr ⟨_, A, (_, σ'), _, hc, ?_, hR, run_branch h hc hq hl hs hv⟩
        simp only [Stmt.sem, hv, Res.bind_do, ok_bind]
      | load r g => exact Or.inl ⟨rfl, fun _ => 1, by simp, (Check.load k r g σ τ q s hc hq hl hs).inv⟩
      | store g e =>
        simp only [Stmt.sem, Res.bind_do, bind_ok_iff] at hx
        obtain ⟨⟨v, σ'⟩, hv, _⟩ := hx
        exact Or.inl ⟨rfl, fun _ => 1, by simp, run_store h hc hq hl hs hv⟩
      | rmw r post g o e =>
        obtain ⟨v, σ', w, hv, hw⟩ := sem_rmw hx
        exact Or.inl ⟨rfl, fun _ => 2, by simp, run_rmw h hc hq hl hs hv⟩
    · have e := Nat.le_antisymm hk hge
      subst e
      have hp : q + 1 = T.P.length := by
        have := uniq T _ _ _ hq (last_at (T := T)).1
        have := (last_at (T := T)).2
        omega
      refine Or.inl ⟨rfl, fun _ => 0, by simp, ?_⟩
      rw [hp]
      exact (Check.fin σ τ s hl hs).inv
  | load k r g σ τ q s hc hq hl hs =>
    have hg : T.objs g := (h.stmts k _ hc).objs g (List.mem_singleton.2 rfl)
    obtain ⟨-, hb⟩ : _ ∧ (T.E.Γ r).bytes ≤ (T.O g).bytes := (h.stmts k _ hc).fine
    rw [bytes_size, bytes_size] at hb
    obtain ⟨q', c, h1, h2, h3, h4⟩ := stmt_at (T := T) k _ hc
    have := uniq T _ _ _ hq h1
    subst this
    unfold atomicStmt at h2
    simp only [lines] at h2
    rw [codeAt_two] at h2
    refine Or.inr ⟨sh, (q + 1 + 1, s.setR .dx (put (ity (T.E.Γ r)).size (s.r .dx) (rd sh (T.E.sym g) (ity (T.E.Γ r)).size))), ?_, ?_⟩
    · unfold tstep
      simp only [h2.1]
      rfl
    generalize hX : s.setR .dx (put (ity (T.E.Γ r)).size (s.r .dx) (rd sh (T.E.sym g) (ity (T.E.Γ r)).size)) = s1
    have hl1 : Lives T.E τ s1 := by rw [← hX]; exact hl.congr rfl (setR_other _ _ _ _ (by simp))
    refine Or.inr ⟨_, A, (k + 1, σ.set r (CTy.conv (T.E.Γ r) (A g))), _, hc, rfl, hR, run_load h hc hq hl1 hs ?_⟩
    rw [← hX]
    rw [setR_same, obj_rd hR hg _ hb]
    exact ((Low.of_eq _ (A g) (size_le _).1).zx).same (put_same _ _ _)
  | xchg k g e σ σ' τ v q s hc hv h1 h2 hl hs hax ht =>
    have hg : T.objs g := (h.stmts k _ hc).objs g (List.mem_singleton.2 rfl)
    refine Or.inr ⟨wr sh (T.E.sym g) (ity (T.O g)).size (s.r .ax), (q + 1, s.setR .ax (put (ity (T.O g)).size (s.r .ax) (rd sh (T.E.sym g) (ity (T.O g)).size))), ?_, ?_⟩
    · unfold tstep
      simp only [h1, ht]
    have hl1 : Lives T.E τ (s.setR .ax (put (ity (T.O g)).size (s.r .ax) (rd sh (T.E.sym g) (ity (T.O g)).size))) := hl.congr rfl (setR_other s .ax .bp _ (by simp))
    refine Or.inr ⟨_, A.set g (CTy.conv (T.O g) v), (k + 1, σ'), _, hc, ?_, ?_, (Check.bnd (k + 1) σ' τ (q + 1) _ h2 (lt_of_code hc) hl1 hs).inv⟩
    · simp only [Stmt.sem, hv, Res.bind_do, ok_bind]
    · have := rel_set hO hR hg (CTy.conv (T.O g) v) (s.r .ax) (by rw [Env.size_eq]; exact hax)
      rw [Env.size_eq] at this
      exact this
  | read k r post g o e c pc σ σ' τ v s hc hX hv hl hs t0 t1 hax ht hK =>
    have hg : T.objs g := (h.stmts k _ hc).objs g (List.mem_singleton.2 rfl)
    obtain ⟨x, hx⟩ := hd _ hc
    obtain ⟨v', σ'', w, hv', hw⟩ := sem_rmw hx
    rw [hv] at hv'
    simp only [Res.ok.injEq, Prod.mk.injEq] at hv'
    obtain ⟨rfl, rfl⟩ := hv'
    have hcode := (Rmw.parts hX).2.1
    unfold rmwL at hcode
    rw [codeAt_two] at hcode
    obtain ⟨s1, a, b, d, f⟩ := load_calc (E := objEnv T.O T.objs T.E.sym) (s := { s with m := sh }) hR hg (ity (T.O g)) (A g) (.ind .ax) .ax (ity_wf _)
      (by rw [cty_ity]; exact hA g) (by rw [Env.size_eq]; exact Nat.le_refl _) ⟨0, by omega⟩ (by simp only [ea, hax]; rfl) scratch_ax
    simp only [execs] at a
    obtain ⟨s1', a1, a2⟩ := Option.bind_eq_some_iff.1 a
    cases a2
    have hl1 : Lives T.E τ { s1 with m := s.m } := hl.congr rfl (d _ nbp)
    have he : Eff T.E (T.op k post g o e c pc).gp (T.op k post g o e c pc).st s { s1 with m := s.m } :=
      ⟨d _ nbp, d _ nsp, fun i _ _ => d _ (ntmp i), fun _ _ _ => rfl⟩
    refine Or.inr ⟨sh, ((T.op k post g o e c pc).pL + 1, { s1 with m := s.m }), ?_, ?_⟩
    · unfold tstep
      have hc1 : T.P[(T.op k post g o e c pc).pL]? = some (.shared (loadExt (ity (T.O g)) (.ind .ax) .ax)) := hcode.1
      have a1 : exec T.E.sym (loadExt (ity (T.O g)) (.ind .ax) .ax) { s with m := sh } = some s1 := a1
      simp only [hc1, a1, Option.map_some, b]
    refine Or.inl ⟨rfl, fun A' => if A' g = A g then 1 else 2, by simp, ?_⟩
    have hne : ∀ i, i < 4 → i ≠ 2 → T.hid k i ≠ T.hid k 2 := fun i hi hi2 e => hi2 (hX.inj i 2 hi (by omega) e)
    have hne3 : ∀ i, i < 4 → i ≠ 3 → T.hid k i ≠ T.hid k 3 := fun i hi hi2 e => hi2 (hX.inj i 3 hi (by omega) e)
    refine Inv.of_gets (Rmw.run_B hX hl1 (hA g) f.1.low ((d _ (ntmp 0)).trans ht)) fun s2 e2 hl2 => ?_
    refine Inv.of_gets (Rmw.run_N hX (w := w) hl2 ?_ ?_) fun s3 e3 ⟨hl3, x3, y3, u3, w3⟩ => ?_
    · show (τ.set (T.hid k 2) (A g)) (T.hid k 0) = _
      rw [set_ne (hne 0 (by omega) (by omega)), t0]
    · show binop o (T.O g) (e.ty T.E.Γ) ((τ.set (T.hid k 2) (A g)) (T.hid k 2)) ((τ.set (T.hid k 2) (A g)) (T.hid k 1)) = _
      rw [set_eq, set_ne (hne 1 (by omega) (by omega)), t1, hw]
    refine (Check.cas k r post g o e c pc σ σ' _ v (A g) w s3 hc hX hv (hA g) hw hl3 ((hs.set (hidden k 2 (by omega)) _).set (hidden k 3 (by omega)) _) ?_ ?_ ?_ ?_ ?_ y3 u3 w3
      (((hK.eff he).eff e2).eff e3)).inv
    · show ((τ.set (T.hid k 2) (A g)).set (T.hid k 3) _) (T.hid k 0) = _
      rw [set_ne (hne3 0 (by omega) (by omega)), set_ne (hne 0 (by omega) (by omega)), t0]
    · show ((τ.set (T.hid k 2) (A g)).set (T.hid k 3) _) (T.hid k 1) = _
      rw [set_ne (hne3 1 (by omega) (by omega)), set_ne (hne 1 (by omega) (by omega)), t1]
    · show ((τ.set (T.hid k 2) (A g)).set (T.hid k 3) _) (T.hid k 2) = _
      rw [set_ne (hne3 2 (by omega) (by omega)), set_eq]
    · exact set_eq
    · have x3 : Low (ity (T.O g)).size ((τ.set (T.hid k 2) (A g)) (T.hid k 2)) (s3.r .ax) := x3
      rwa [set_eq] at x3
  | cas k r post g o e c pc σ σ' τ v x w s hc hX hv hx hw hl hs t0 t1 t2 t3 hax hdx ht hu hK =>
    have hg : T.objs g := (h.stmts k _ hc).objs g (List.mem_singleton.2 rfl)
    have h8 := (size_le (ity (T.O g))).1
    have hold := obj_rd hR hg _ (Nat.le_refl _)
    have hcode : T.P[(T.op k post g o e c pc).pX]? = some (.cmpxchg (ity (T.O g)).size .dx (.tmp 1)) := (Rmw.parts hX).2.2.2.2.1
    have hzx : zx (ity (T.O g)).size (s.r .ax) = zx (ity (T.O g)).size (BitVec.ofInt 64 x) := hax.zx_eq h8
    by_cases hxe : x = A g
    · subst hxe
      refine Or.inr ⟨wr sh (T.E.sym g) (ity (T.O g)).size (s.r .dx), ((T.op k post g o e c pc).pX + 1, { s with f := some (cmpFlags (ity (T.O g)).size (s.r .ax) (rd sh (T.E.sym g) (ity (T.O g)).size)) }), ?_, ?_⟩
      · unfold tstep
        simp only [hcode, hu, hold, hzx, if_true]
      have he : Eff T.E (T.op k post g o e c pc).gp (T.op k post g o e c pc).st s { s with f := some (cmpFlags (ity (T.O g)).size (s.r .ax) (rd sh (T.E.sym g) (ity (T.O g)).size)) } := eff_flags _
      refine Or.inr ⟨_, _, _, fun _ => 3, hc, sem_rmw_eq hv hw, ?_, ?_⟩
      · have := rel_set hO hR hg (CTy.conv (T.O g) w) (s.r .dx) (by rw [Env.size_eq]; exact hdx)
        rw [Env.size_eq] at this
        exact this
      · have hfl : (cmpFlags (ity (T.O g)).size (s.r .ax) (rd sh (T.E.sym g) (ity (T.O g)).size)).eq = true := by
          simp only [cmpFlags, hold, hzx, zx_zx, beq_self_eq_true]
        refine Inv.of_gets (Rmw.run_S hX _ rfl hfl (hl.congr rfl rfl) ht) fun s1 e1 ⟨hl1, p1⟩ => ?_
        obtain ⟨q, s2, τ', r2, q2, hl2, hs2⟩ := hK s1 τ (he.trans e1) hl1 hs p1
        have hres : τ ((T.op k post g o e c pc).h (if (T.op k post g o e c pc).post then 2 else 3)) = if post then A g else CTy.conv (T.O g) w := by
          show τ (T.hid k (if post then 2 else 3)) = _
          cases post
          · exact t3
          · exact t2
        rw [hres] at hs2
        exact ⟨_, r2, .bnd (k + 1) _ τ' q s2 q2 (lt_of_code hc) hl2 hs2⟩
    · have hzne : zx (ity (T.O g)).size (s.r .ax) ≠ rd sh (T.E.sym g) (ity (T.O g)).size := by
        rw [hold, hzx]
        exact fun e => hxe (same_value _ hx (hA g) e)
      refine Or.inr ⟨sh, ((T.op k post g o e c pc).pX + 1, { s.setR .ax (put (ity (T.O g)).size (s.r .ax) (rd sh (T.E.sym g) (ity (T.O g)).size)) with
        f := some (cmpFlags (ity (T.O g)).size (s.r .ax) (rd sh (T.E.sym g) (ity (T.O g)).size)) }), ?_, ?_⟩
      · unfold tstep
        simp only [hcode, hu, if_neg hzne]
      obtain ⟨x', hx'⟩ := hd _ hc
      obtain ⟨v', σ'', w', hv', hw'⟩ := sem_rmw hx'
      rw [hv] at hv'
      simp only [Res.ok.injEq, Prod.mk.injEq] at hv'
      obtain ⟨rfl, rfl⟩ := hv'
      refine Or.inl ⟨rfl, fun A' => if A' g = A g then 1 else 2, by simp [Ne.symm hxe], ?_⟩
      have hfl : (cmpFlags (ity (T.O g)).size (s.r .ax) (rd sh (T.E.sym g) (ity (T.O g)).size)).eq = false := by
        simp only [cmpFlags, hold, zx_zx]
        rw [hold] at hzne
        simpa using hzne
      have he : Eff T.E (T.op k post g o e c pc).gp (T.op k post g o e c pc).st s { s.setR .ax (put (ity (T.O g)).size (s.r .ax) (rd sh (T.E.sym g) (ity (T.O g)).size)) with
        f := some (cmpFlags (ity (T.O g)).size (s.r .ax) (rd sh (T.E.sym g) (ity (T.O g)).size)) } := eff_setR _ _ _ (Or.inl scratch_ax)
      have hne : ∀ i, i < 4 → i ≠ 2 → T.hid k i ≠ T.hid k 2 := fun i hi hi2 e => hi2 (hX.inj i 2 hi (by omega) e)
      have hne3 : ∀ i, i < 4 → i ≠ 3 → T.hid k i ≠ T.hid k 3 := fun i hi hi2 e => hi2 (hX.inj i 3 hi (by omega) e)
      have hl1 : Lives T.E τ { s.setR .ax (put (ity (T.O g)).size (s.r .ax) (rd sh (T.E.sym g) (ity (T.O g)).size)) with
        f := some (cmpFlags (ity (T.O g)).size (s.r .ax) (rd sh (T.E.sym g) (ity (T.O g)).size)) } :=
        hl.congr rfl (setR_other s .ax .bp (put (ity (T.O g)).size (s.r .ax) (rd sh (T.E.sym g) (ity (T.O g)).size)) (by simp))
      refine Inv.of_gets (Rmw.run_F hX _ rfl hfl hl1 (hA g) ?_ ?_) fun s2 e2 hl2 => ?_
      · show Low _ _ ((s.setR .ax (put (ity (T.O g)).size (s.r .ax) (rd sh (T.E.sym g) (ity (T.O g)).size))).r .ax)
        rw [setR_same, hold]
        exact ((Low.of_eq _ (A g) h8).zx).same (put_same _ _ _)
      · show (s.setR .ax (put (ity (T.O g)).size (s.r .ax) (rd sh (T.E.sym g) (ity (T.O g)).size))).r (.tmp 0) = _
        rw [setR_other _ _ _ _ (by simp)]
        exact ht
      refine Inv.of_gets (Rmw.run_N hX (w := w') hl2 ?_ ?_) fun s3 e3 ⟨hl3, x3, y3, u3, w3⟩ => ?_
      · show (τ.set (T.hid k 2) (A g)) (T.hid k 0) = _
        rw [set_ne (hne 0 (by omega) (by omega)), t0]
      · show binop o (T.O g) (e.ty T.E.Γ) ((τ.set (T.hid k 2) (A g)) (T.hid k 2)) ((τ.set (T.hid k 2) (A g)) (T.hid k 1)) = _
        rw [set_eq, set_ne (hne 1 (by omega) (by omega)), t1, hw']
      refine (Check.cas k r post g o e c pc σ σ' _ v (A g) w' s3 hc hX hv (hA g) hw' hl3 ((hs.set (hidden k 2 (by omega)) _).set (hidden k 3 (by omega)) _) ?_ ?_ ?_ ?_ ?_ y3 u3 w3
        (((hK.eff he).eff e2).eff e3)).inv
      · show ((τ.set (T.hid k 2) (A g)).set (T.hid k 3) _) (T.hid k 0) = _
        rw [set_ne (hne3 0 (by omega) (by omega)), set_ne (hne 0 (by omega) (by omega)), t0]
      · show ((τ.set (T.hid k 2) (A g)).set (T.hid k 3) _) (T.hid k 1) = _
        rw [set_ne (hne3 1 (by omega) (by omega)), set_ne (hne 1 (by omega) (by omega)), t1]
      · show ((τ.set (T.hid k 2) (A g)).set (T.hid k 3) _) (T.hid k 2) = _
        rw [set_ne (hne3 2 (by omega) (by omega)), set_eq]
      · exact set_eq
      · have x3 : Low (ity (T.O g)).size ((τ.set (T.hid k 2) (A g)) (T.hid k 2)) (s3.r .ax) := x3
        rwa [set_eq] at x3

end Atomic.Thr
end Slimcc
