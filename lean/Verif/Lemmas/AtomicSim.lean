import Verif.Lemmas.AtomicAdv
/-! All threads: the machine does what the program does. -/
set_option autoImplicit false
namespace Slimcc
open Slimcc.Spec Slimcc.Spec.CTy Slimcc.Ty Slimcc.X86 Slimcc.Gen Slimcc.Atomic

namespace Atomic.Thr

/-- A thread whose program is at `st` is `r.2` instructions from a place of `Check`, with the bound
`r.1` when the objects are `A`. -/
def At (T : Thr) (A : Store) (r : Nat × Nat) (st : Nat × Store) (c : Nat × St) : Prop :=
  ∃ m c', m A = r.1 ∧ steps T.E.sym T.P r.2 c = some c' ∧ Check T m st c'

theorem Inv.at {T : Thr} {m : Store → Nat} {st : Nat × Store} {c : Nat × St} (h : Inv T m st c) (A : Store) : ∃ n, At T A (m A, n) st c := by
  obtain ⟨c', ⟨n, hn⟩, h⟩ := h
  exact ⟨n, m, c', rfl, hn, h⟩

theorem At.again {T : Thr} {A : Store} {r : Nat × Nat} {st : Nat × Store} {c : Nat × St} (h : At T A r st c) (A' : Store) : ∃ r', At T A' r' st c := by
  obtain ⟨m, c', _, h2, h3⟩ := h
  exact ⟨(m A', r.2), m, c', rfl, h2, h3⟩

theorem tstep_of_step {sym : Nat → Word} {P : List Line} {c c' : Nat × St} (sh : Word → BitVec 8) (h : step sym P c = some c') : tstep sym P sh c = some (sh, c') := by
  unfold tstep
  split
  · next h1 => unfold step at h; rw [h1] at h; cases h
  · next h1 => unfold step at h; rw [h1] at h; cases h
  · next h1 => unfold step at h; rw [h1] at h; cases h
  · rw [h]; rfl

theorem step_inside {sym : Nat → Word} {P : List Line} {c c' : Nat × St} (h : step sym P c = some c') : c.1 < P.length := by
  refine Nat.lt_of_not_le fun hn => ?_
  unfold step at h
  rw [List.getElem?_eq_none hn] at h
  cases h

theorem At.step {T : Thr} (h : T.Ok) (hO : (objEnv T.O T.objs T.E.sym).Ok) {A : Store} {sh : Word → BitVec 8} {r : Nat × Nat} {st : Nat × Store} {c : Nat × St} (hA : StoreOk T.O A)
    (hR : T.Holds A sh) (hc : At T A r st c) (hd : ∀ s, T.code[st.1]? = some s → ∃ r, s.sem T.O T.E.Γ A st.1 st.2 = .ok r) :
    T.P.length ≤ c.1 ∨ (c.1 < T.P.length ∧ ∃ sh' c1, tstep T.E.sym T.P sh c = some (sh', c1) ∧
      ((sh' = sh ∧ ∃ r', Prod.Lex Nat.lt Nat.lt r' r ∧ At T A r' st c1) ∨
       ∃ s A' st' r', T.code[st.1]? = some s ∧ s.sem T.O T.E.Γ A st.1 st.2 = .ok (A', st') ∧ T.Holds A' sh' ∧ At T A' r' st' c1)) := by
  obtain ⟨a, n⟩ := r
  obtain ⟨m, c', h1, h2, h3⟩ := hc
  cases n with
  | zero =>
    simp only [steps, Option.some.injEq] at h2
    subst h2
    rcases adv h hO hA hR h3 hd with h4 | ⟨sh', c1, h4, h5⟩
    · exact Or.inl h4
    · rcases Nat.lt_or_ge c.1 T.P.length with hlt | hge
      · refine Or.inr ⟨hlt, sh', c1, h4, ?_⟩
        rcases h5 with ⟨e, m', hm, hi⟩ | ⟨s, A', st', m', h6, h7, h8, h9⟩
        · obtain ⟨n', hn⟩ := hi.at A
          exact Or.inl ⟨e, _, Prod.Lex.left _ _ (Nat.lt_of_lt_of_eq hm h1), hn⟩
        · obtain ⟨n', hn⟩ := h9.at A'
          exact Or.inr ⟨s, A', st', _, h6, h7, h8, hn⟩
      · exact Or.inl hge
  | succ n =>
    simp only [steps] at h2
    obtain ⟨c1, h4, h5⟩ := Option.bind_eq_some_iff.1 h2
    exact Or.inr ⟨step_inside h4, sh, c1, tstep_of_step sh h4, Or.inl ⟨rfl, (a, n), Prod.Lex.right _ (Nat.lt_succ_self n), m, c', h1, h5, h3⟩⟩

/-- A thread at the end of its code. -/
theorem At.done {T : Thr} {A : Store} {r : Nat × Nat} {st : Nat × Store} {c : Nat × St} (h : At T A r st c) (hd : T.P.length ≤ c.1) :
    st.1 = T.code.length ∧ ∃ τ, Lives T.E τ c.2 ∧ T.Sees st.2 τ := by
  obtain ⟨m, c', -, h2, h3⟩ := h
  have : c' = c := by
    cases hr : r.2 with
    | zero => rw [hr] at h2; simpa only [steps, Option.some.injEq, eq_comm] using h2
    | succ n =>
      rw [hr] at h2
      simp only [steps] at h2
      obtain ⟨c1, h4, _⟩ := Option.bind_eq_some_iff.1 h2
      exact absurd (step_inside h4) (Nat.not_lt.2 hd)
  subst this
  cases h3 with
  | fin σ τ s hl hs => exact ⟨rfl, τ, hl, hs⟩
  | bnd k σ τ q s hq => exact absurd (not_end hq) (Nat.not_lt.2 hd)
  | load k r g σ τ q s hc hq hl hs =>
    obtain ⟨q', c, h1, h2, h3, h4⟩ := stmt_at (T := T) k _ hc
    have := uniq T _ _ _ hq h1
    subst this
    have := not_end h4
    have hd : T.P.length ≤ q + 1 := hd
    omega
  | xchg k g e σ σ' τ v q s hc hv hq => exact absurd (not_end hq) (Nat.not_lt.2 hd)
  | read k r post g o e c pc σ σ' τ v s hc hX =>
    have hcode := (Rmw.parts hX).2.1
    unfold rmwL at hcode
    rw [codeAt_two] at hcode
    exact absurd (not_end hcode.1) (Nat.not_lt.2 hd)
  | cas k r post g o e c pc σ σ' τ v x w s hc hX => exact absurd (not_end (Rmw.parts hX).2.2.2.2.1) (Nat.not_lt.2 hd)

end Atomic.Thr

namespace Atomic.Comp
open Atomic.Thr
variable {C : Comp}

theorem env_ok (h : C.Ok) (i : Nat) : (objEnv (C.thr i).O (C.thr i).objs (C.thr i).E.sym).Ok where
  direct := fun x _ => Or.inr ⟨x, rfl⟩
  vars := fun x y hx hy hxy => by
    have e : (C.thr i).E.sym = C.sym := h.sym i
    rw [e]
    exact h.objs x y hx hy hxy
  slots := fun x k _ hk => absurd hk (Nat.not_lt_zero _)
  room := by show 8 * 0 ≤ 2 ^ 64; decide

theorem holds_iff (h : C.Ok) (i : Nat) (A : Store) (sh : Word → BitVec 8) : (C.thr i).Holds A sh ↔ C.Holds A sh := by
  unfold Thr.Holds
  rw [show (C.thr i).E.sym = C.sym from h.sym i]
  exact Iff.rfl

/-- The state of the program, the machine, and how far each thread is. -/
structure Cfg where
  S : State
  g : MSt
  r : Nat → Nat × Nat

structure Tied (C : Comp) (X : Cfg) : Prop where
  holds : C.Holds X.S.A X.g.sh
  ok : StoreOk C.O X.S.A
  defined : C.prog.Defined X.S
  at_ : ∀ i, Thr.At (C.thr i) X.S.A (X.r i) (X.S.th i) (X.g.th i)

/-- Thread `i` runs for one instruction and does no statement. -/
def Idle (C : Comp) (i : Nat) (X X' : Cfg) : Prop :=
  X'.S = X.S ∧ (∀ j, j ≠ i → X'.r j = X.r j) ∧ (C.Done i X.g ∨ Prod.Lex Nat.lt Nat.lt (X'.r i) (X.r i))

/-- Thread `i` does a statement. -/
def Did (C : Comp) (i : Nat) (S S' : State) : Prop := (S.th i).1 < (C.code i).length ∧ C.prog.step i S = .ok S'

theorem defined_step {p : Prog} {S S' : State} {i : Nat} (h : p.Defined S) (hs : p.step i S = .ok S') : p.Defined S' := fun l => by
  obtain ⟨S'', h1⟩ := h (i :: l)
  simp only [Prog.run, hs, Res.bind_do, ok_bind] at h1
  exact ⟨S'', h1⟩

theorem defined_sem {p : Prog} {S : State} (h : p.Defined S) {i : Nat} {s : Stmt} (hs : (p.code i)[(S.th i).1]? = some s) :
    ∃ r, s.sem p.O (p.Γ i) S.A (S.th i).1 (S.th i).2 = .ok r := by
  obtain ⟨S', h1⟩ := h [i]
  simp only [Prog.run, Prog.step, hs, Res.bind_do, bind_ok_iff] at h1
  obtain ⟨_, ⟨r, h2, _⟩, _⟩ := h1
  exact ⟨r, h2⟩

theorem sem_ok {O Γ : Nat → CTy} {A A' σ : Store} {k : Nat} {s : Stmt} {st : Nat × Store} (hA : StoreOk O A) (h : s.sem O Γ A k σ = .ok (A', st)) : StoreOk O A' := by
  cases s <;> simp only [Stmt.sem, Res.bind_do, bind_ok_iff, Res.ok.injEq, Prod.mk.injEq] at h
  · obtain ⟨_, _, rfl, _⟩ := h; exact hA
  · obtain ⟨_, _, rfl, _⟩ := h; exact hA
  · obtain ⟨rfl, _⟩ := h; exact hA
  · obtain ⟨_, _, rfl, _⟩ := h; exact StoreOk.set hA _ _ (conv_range _ _)
  · obtain ⟨_, _, _, _, rfl, _⟩ := h; exact StoreOk.set hA _ _ (conv_range _ _)

theorem next (h : C.Ok) {X : Cfg} (hX : Tied C X) (i : Nat) :
    ∃ X', mstep C.sym C.P i X.g = some X'.g ∧ Tied C X' ∧ (Idle C i X X' ∨ Did C i X.S X'.S) := by
  have hsym : (C.thr i).E.sym = C.sym := h.sym i
  rcases (hX.at_ i).step (h.thr i) (env_ok h i) hX.ok ((holds_iff h i _ _).2 hX.holds) (fun s hs => defined_sem (p := C.prog) hX.defined hs) with hdone | ⟨hlt, sh', c1, ht, hm⟩
  · refine ⟨X, ?_, hX, Or.inl ⟨rfl, fun _ _ => rfl, Or.inl hdone⟩⟩
    unfold mstep
    exact if_pos hdone
  · rw [hsym] at ht
    have hstep : mstep C.sym C.P i X.g = some ⟨sh', fun j => if j = i then c1 else X.g.th j⟩ := by
      unfold mstep
      have hlt : (X.g.th i).1 < (C.P i).length := hlt
      rw [if_neg (Nat.not_le.2 hlt)]
      have ht : tstep C.sym (C.P i) X.g.sh (X.g.th i) = some (sh', c1) := ht
      rw [ht]
      rfl
    rcases hm with ⟨rfl, r', hr, ha⟩ | ⟨s, A', st', r', hc, hsem, hh, ha⟩
    · refine ⟨⟨X.S, ⟨X.g.sh, fun j => if j = i then c1 else X.g.th j⟩, fun j => if j = i then r' else X.r j⟩, hstep, ⟨hX.holds, hX.ok, hX.defined, fun j => ?_⟩, Or.inl ⟨rfl, fun j hj => if_neg hj, Or.inr ?_⟩⟩
      · dsimp only
        by_cases hj : j = i
        · subst hj
          rw [if_pos rfl, if_pos rfl]
          exact ha
        · rw [if_neg hj, if_neg hj]
          exact hX.at_ j
      · dsimp only
        rw [if_pos rfl]
        exact hr
    · have hst : C.prog.step i X.S = .ok ⟨A', fun j => if j = i then st' else X.S.th j⟩ := by
        unfold Prog.step
        rw [show (C.prog.code i)[(X.S.th i).1]? = some s from hc]
        dsimp only
        rw [show s.sem C.prog.O (C.prog.Γ i) X.S.A (X.S.th i).1 (X.S.th i).2 = .ok (A', st') from hsem]
        rfl
      have hall : ∀ j, ∃ r'', Thr.At (C.thr j) A' r'' (if j = i then st' else X.S.th j) (if j = i then c1 else X.g.th j) := by
        intro j
        by_cases hj : j = i
        · subst hj
          rw [if_pos rfl, if_pos rfl]
          exact ⟨r', ha⟩
        · rw [if_neg hj, if_neg hj]
          exact (hX.at_ j).again A'
      refine ⟨⟨⟨A', fun j => if j = i then st' else X.S.th j⟩, ⟨sh', fun j => if j = i then c1 else X.g.th j⟩, fun j => Classical.choose (hall j)⟩, hstep,
        ⟨(holds_iff h i _ _).1 hh, sem_ok hX.ok hsem, defined_step hX.defined hst, fun j => Classical.choose_spec (hall j)⟩, Or.inr ⟨lt_of_code hc, hst⟩⟩

theorem start (h : C.Ok) {S : State} {g : MSt} (hs : C.Start S g) (hd : C.prog.Defined S) : ∃ r, Tied C ⟨S, g, r⟩ := by
  refine ⟨fun _ => (3, 0), hs.objs, hs.ok.1, hd, fun i => ⟨fun _ => 3, g.th i, rfl, rfl, ?_⟩⟩
  obtain ⟨h1, h2⟩ := hs.pc i
  have e1 : S.th i = (0, (S.th i).2) := Prod.ext h1 rfl
  have e2 : g.th i = (0, (g.th i).2) := Prod.ext h2 rfl
  dsimp only
  rw [e1, e2]
  exact .bnd 0 _ (S.th i).2 0 _ (first_at (T := C.thr i)) (Nat.zero_le _) ⟨hs.ok.2 i, hs.bp i, hs.vars i⟩ (fun _ _ => rfl)

theorem shows {X : Cfg} (hX : Tied C X) : C.Shows X.S X.g where
  objs := hX.holds
  done := fun i hd => by
    obtain ⟨h1, τ, hl, hs⟩ := (hX.at_ i).done hd
    refine ⟨h1, fun x hx hh j hj => ?_⟩
    rw [hs x hh]
    exact hl.rel x hx j hj

/-- The states along a schedule. -/
noncomputable def seq (h : C.Ok) (f : Nat → Nat) (X : Cfg) (hX : Tied C X) : Nat → { X : Cfg // Tied C X }
  | 0 => ⟨X, hX⟩
  | n + 1 => ⟨Classical.choose (next h (seq h f X hX n).2 (f n)), (Classical.choose_spec (next h (seq h f X hX n).2 (f n))).2.1⟩

theorem seq_step (h : C.Ok) (f : Nat → Nat) (X : Cfg) (hX : Tied C X) (n : Nat) :
    mstep C.sym C.P (f n) (seq h f X hX n).1.g = some (seq h f X hX (n + 1)).1.g ∧
    (Idle C (f n) (seq h f X hX n).1 (seq h f X hX (n + 1)).1 ∨ Did C (f n) (seq h f X hX n).1.S (seq h f X hX (n + 1)).1.S) :=
  ⟨(Classical.choose_spec (next h (seq h f X hX n).2 (f n))).1, (Classical.choose_spec (next h (seq h f X hX n).2 (f n))).2.2⟩

theorem mrun_snoc (sym : Nat → Word) (P : Nat → List Line) (l : List Nat) (i : Nat) (g : MSt) : mrun sym P (l ++ [i]) g = (mrun sym P l g).bind (mstep sym P i) := by
  induction l generalizing g with
  | nil => simp only [List.nil_append, mrun, Option.bind_some]; cases mstep sym P i g <;> rfl
  | cons j l ih =>
    simp only [List.cons_append, mrun]
    cases mstep sym P j g with
    | none => rfl
    | some g' => exact ih g'

theorem seq_run (h : C.Ok) (f : Nat → Nat) (X : Cfg) (hX : Tied C X) (n : Nat) : mrun C.sym C.P ((List.range n).map f) X.g = some (seq h f X hX n).1.g := by
  induction n with
  | zero => rfl
  | succ n ih => rw [List.range_succ, List.map_append, List.map_singleton, mrun_snoc, ih]; exact (seq_step h f X hX n).1

/-- A thread that runs again and again gets to its end, unless some thread does a statement. -/
theorem seq_moves (h : C.Ok) (f : Nat → Nat) (X : Cfg) (hX : Tied C X) (i : Nat) (hf : ∀ n, ∃ k, n ≤ k ∧ f k = i) (n : Nat) :
    ∃ k, n ≤ k ∧ (C.Done i (seq h f X hX k).1.g ∨ Did C (f k) (seq h f X hX k).1.S (seq h f X hX (k + 1)).1.S) := by
  generalize hr : (seq h f X hX n).1.r i = r
  induction r using (Prod.lex Nat.lt_wfRel Nat.lt_wfRel).wf.induction generalizing n with
  | _ r ih =>
    obtain ⟨k, hk, hfk⟩ := hf n
    have key : ∀ d n, n + d = k → (seq h f X hX n).1.r i = r →
        ∃ k, n ≤ k ∧ (C.Done i (seq h f X hX k).1.g ∨ Did C (f k) (seq h f X hX k).1.S (seq h f X hX (k + 1)).1.S) := by
      intro d
      induction d with
      | zero =>
        intro n hn hr
        have : n = k := by omega
        subst this
        rcases (seq_step h f X hX n).2 with ⟨_, _, hd | hl⟩ | hd
        · rw [hfk] at hd; exact ⟨n, Nat.le_refl _, Or.inl hd⟩
        · rw [hfk, hr] at hl
          obtain ⟨k, hk, hq⟩ := ih _ hl (n + 1) rfl
          exact ⟨k, by omega, hq⟩
        · exact ⟨n, Nat.le_refl _, Or.inr hd⟩
      | succ d ihd =>
        intro n hn hr
        by_cases hfn : f n = i
        · rcases (seq_step h f X hX n).2 with ⟨_, _, hd | hl⟩ | hd
          · rw [hfn] at hd; exact ⟨n, Nat.le_refl _, Or.inl hd⟩
          · rw [hfn, hr] at hl
            obtain ⟨k, hk, hq⟩ := ih _ hl (n + 1) rfl
            exact ⟨k, by omega, hq⟩
          · exact ⟨n, Nat.le_refl _, Or.inr hd⟩
        · rcases (seq_step h f X hX n).2 with ⟨_, ho, _⟩ | hd
          · obtain ⟨k', hk', hq⟩ := ihd (n + 1) (by omega) (by rw [ho i (Ne.symm hfn), hr])
            exact ⟨k', by omega, hq⟩
          · exact ⟨n, Nat.le_refl _, Or.inr hd⟩
    exact key (k - n) n (by omega) hr

end Atomic.Comp
end Slimcc
