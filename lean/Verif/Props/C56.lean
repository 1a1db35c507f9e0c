import Verif.Lemmas.AtomicProg
import Verif.Lemmas.Frame
/-!
C56: atomic objects shared by threads.

`Spec.Atomic` is the meaning: every load, store, `op=`, `++` and `--` of an atomic object is one
operation, and the operations happen one after the other. `Model.Atomic` has the code that slimcc
generates (an exchange for stores, a loop around a compare-and-exchange for the others) and a machine
that runs the threads' instructions in any order. A schedule `f` says which thread runs at each
moment; nothing is assumed about it except where stated.
-/
set_option autoImplicit false
namespace Slimcc.Props
open Slimcc Slimcc.Spec Slimcc.X86 Slimcc.Gen Slimcc.Atomic

/-- Whatever the schedule, the machine does what the program does in some order of its statements:
there are states `S` of the program beside the states `g` of the machine, and at each moment the
thread that runs an instruction either does its next statement as one operation or does nothing in
the program. No instruction faults. The shared memory has the objects of the program at every moment,
and the memory of a thread that has finished has its variables. A thread that runs again and
again finishes, unless threads do statements again and again. -/
theorem C56_refines (C : Comp) (h : C.Ok) (S0 : Atomic.State) (g0 : MSt) (hs : C.Start S0 g0) (hd : C.prog.Defined S0) (f : Nat → Nat) :
    ∃ (S : Nat → Atomic.State) (g : Nat → MSt) (did : Nat → Prop), S 0 = S0 ∧
      (∀ n, mrun C.sym C.P ((List.range n).map f) g0 = some (g n)) ∧
      (∀ n, did n → ((S n).th (f n)).1 < (C.code (f n)).length ∧ C.prog.step (f n) (S n) = .ok (S (n + 1))) ∧
      (∀ n, ¬ did n → S (n + 1) = S n) ∧
      (∀ n, C.Shows (S n) (g n)) ∧
      (∀ i, (∀ n, ∃ k, n ≤ k ∧ f k = i) → ∀ n, ∃ k, n ≤ k ∧ (C.Done i (g k) ∨ did k)) := by
  obtain ⟨r, hX⟩ := Comp.start h hs hd
  refine ⟨fun n => (Comp.seq h f _ hX n).1.S, fun n => (Comp.seq h f _ hX n).1.g, fun n => Comp.Did C (f n) (Comp.seq h f _ hX n).1.S (Comp.seq h f _ hX (n + 1)).1.S,
    rfl, Comp.seq_run h f _ hX, fun n hn => hn, fun n hn => ?_, fun n => Comp.shows (Comp.seq h f _ hX n).2, fun i hi n => Comp.seq_moves h f _ hX i hi n⟩
  rcases (Comp.seq_step h f _ hX n).2 with hi | hi
  · exact hi.1
  · exact absurd hi hn

/-- The order of the statements is one in which each thread's come in the order in which it ran. -/
theorem C56_order (C : Comp) (h : C.Ok) (S0 : Atomic.State) (g0 : MSt) (hs : C.Start S0 g0) (hd : C.prog.Defined S0) (l : List Nat) :
    ∃ g l' S, mrun C.sym C.P l g0 = some g ∧ l'.Sublist l ∧ C.prog.run l' S0 = .ok S ∧ C.Shows S g := by
  obtain ⟨S, g, did, h1, h2, h3, h4, h5, -⟩ := C56_refines C h S0 g0 hs hd (fun n => l.getD n 0)
  have key : ∀ n, ∃ l', l'.Sublist ((List.range n).map fun n => l.getD n 0) ∧ C.prog.run l' S0 = .ok (S n) := by
    intro n
    induction n with
    | zero => exact ⟨[], List.Sublist.refl _, by rw [h1]; rfl⟩
    | succ n ih =>
      obtain ⟨l', hl, hr⟩ := ih
      rw [List.range_succ, List.map_append, List.map_singleton]
      by_cases hn : did n
      · refine ⟨l' ++ [l.getD n 0], hl.append (List.Sublist.refl _), ?_⟩
        have app : ∀ (l : List Nat) (S S1 S2 : Atomic.State) (i : Nat), C.prog.run l S = .ok S1 → C.prog.step i S1 = .ok S2 → C.prog.run (l ++ [i]) S = .ok S2 := by
          intro l
          induction l with
          | nil =>
            intro S S1 S2 i e1 e2
            simp only [Prog.run, Res.ok.injEq] at e1
            subst e1
            simp only [List.nil_append, Prog.run, e2, Res.bind_do, ok_bind]
          | cons j l ih =>
            intro S S1 S2 i e1 e2
            simp only [Prog.run, Res.bind_do, bind_ok_iff] at e1
            obtain ⟨S', e3, e4⟩ := e1
            simp only [List.cons_append, Prog.run, e3, Res.bind_do, ok_bind]
            exact ih _ _ _ _ e4 e2
        exact app _ _ _ _ _ hr (h3 n hn).2
      · exact ⟨l', hl.trans (List.sublist_append_left _ _), by rw [h4 n hn]; exact hr⟩
  obtain ⟨l', hl, hr⟩ := key l.length
  have e : (List.range l.length).map (fun n => l.getD n 0) = l := by
    refine List.ext_getElem (by simp) fun i h1 h2 => ?_
    simp only [List.getElem_map, List.getElem_range]
    rw [List.getD_eq_getElem?_getD, List.getElem?_eq_getElem h2]
    rfl
  rw [e] at hl
  have h2 := h2 l.length
  rw [e] at h2
  exact ⟨_, l', _, h2, hl, hr, h5 l.length⟩

/-- If the program ends in every order of its statements, every thread that runs again and again
finishes, and has then finished for good: the loops around compare-and-exchange do not go on forever,
whatever the other threads do. -/
theorem C56_ends (C : Comp) (h : C.Ok) (S0 : Atomic.State) (g0 : MSt) (hs : C.Start S0 g0) (hd : C.prog.Defined S0) (he : C.prog.Ends S0) (f : Nat → Nat)
    (i : Nat) (hi : ∀ n, ∃ k, n ≤ k ∧ f k = i) :
    ∃ k, ∀ n, k ≤ n → ∃ g, mrun C.sym C.P ((List.range n).map f) g0 = some g ∧ C.Done i g := by
  obtain ⟨S, g, did, h1, h2, h3, h4, -, h6⟩ := C56_refines C h S0 g0 hs hd f
  have stay : ∀ k, C.Done i (g k) → ∀ d, C.Done i (g (k + d)) := by
    intro k hk d
    induction d with
    | zero => exact hk
    | succ d ih =>
      have hn := h2 (k + d + 1)
      rw [List.range_succ, List.map_append, List.map_singleton, Comp.mrun_snoc, h2 (k + d)] at hn
      have hn : mstep C.sym C.P (f (k + d)) (g (k + d)) = some (g (k + d + 1)) := hn
      unfold mstep at hn
      split at hn
      · show C.Done i (g (k + d + 1)); rw [← Option.some.inj hn]; exact ih
      · next hlt =>
        obtain ⟨⟨sh, c⟩, _, e⟩ := Option.map_eq_some_iff.1 hn
        show (C.P i).length ≤ ((g (k + d + 1)).th i).1
        rw [← e]
        dsimp only
        by_cases hj : i = f (k + d)
        · rw [hj] at ih; exact absurd ih hlt
        · rw [if_neg hj]; exact ih
  have gets : ∀ T, C.prog.Ends T → ∀ n, S n = T → ∃ k, C.Done i (g k) := by
    intro T hT
    induction hT with
    | intro T _ ih =>
      intro n hn
      have go : ∀ d n k, k = n + d → S n = T → (C.Done i (g k) ∨ did k) → ∃ k, C.Done i (g k) := by
        intro d
        induction d with
        | zero =>
          intro n k hk hn hd
          have : k = n := hk
          subst this
          rcases hd with hd | hd
          · exact ⟨_, hd⟩
          · obtain ⟨e1, e2⟩ := h3 k hd
            rw [hn] at e1 e2
            exact ih _ _ e1 e2 (k + 1) rfl
        | succ d ihd =>
          intro n k hk hn hd
          by_cases hdn : did n
          · obtain ⟨e1, e2⟩ := h3 n hdn
            rw [hn] at e1 e2
            exact ih _ _ e1 e2 (n + 1) rfl
          · exact ihd (n + 1) k (by omega) (by rw [h4 n hdn, hn]) hd
      obtain ⟨k, hk, hd⟩ := h6 i hi n
      exact go (k - n) n k (by omega) hn hd
  obtain ⟨k, hk⟩ := gets S0 he 0 h1
  refine ⟨k, fun n hn => ⟨g n, h2 n, ?_⟩⟩
  have := stay k hk (n - k)
  rwa [Nat.add_sub_cancel' hn] at this

/-- Finitely many threads without backward jumps end. -/
theorem C56_forward (p : Prog) (N : Nat) (hN : ∀ i, N ≤ i → p.code i = []) (hf : ∀ (i k : Nat) (e : Expr) (j : Nat), (p.code i)[k]? = some (Atomic.Stmt.branch e j) → k < j)
    (S : Atomic.State) : p.Ends S :=
  ends_forward N hN (fun i k s hs e j he => hf i k e j (by rw [hs, he])) S

/-- No increment is lost: if thread `i` of `N` threads increments the counter `x` `n i` times, and each
thread runs again and again, all threads finish, and the counter then is what it was plus the sum of
the `n i` (converted to its type). -/
theorem C56_counter (C : Comp) (h : C.Ok) (S0 : Atomic.State) (g0 : MSt) (hs : C.Start S0 g0) (x N : Nat) (n : Nat → Nat) (hx : C.objs x) (ht : C.O x ≠ .bool)
    (hcode : ∀ i, C.code i = List.replicate (n i) (incStmt x)) (hN : ∀ i, N ≤ i → n i = 0) (f : Nat → Nat) (hf : ∀ i, i < N → ∀ n, ∃ k, n ≤ k ∧ f k = i) :
    ∃ k, ∀ m, k ≤ m → ∃ g, mrun C.sym C.P ((List.range m).map f) g0 = some g ∧ (∀ i, i < N → C.Done i g) ∧
      ∀ j, j < (C.O x).bytes → g.sh (C.sym x + BitVec.ofNat 64 j) = (BitVec.ofInt 64 (CTy.conv (C.O x) (S0.A x + sumTo n N)) >>> (8 * j)).setWidth 8 := by
  have inc : ∀ i k s, (C.code i)[k]? = some s → s = incStmt x := fun i k s hs => by
    rw [hcode] at hs
    exact List.eq_of_mem_replicate (List.mem_of_getElem? hs)
  have hd : C.prog.Defined S0 := defined_of (fun i k s hs A σ => by
    rw [inc i k s hs]
    exact ⟨_, inc_sem ht⟩) S0
  have he : C.prog.Ends S0 := ends_forward N (fun i hi => by show C.code i = []; rw [hcode, hN i hi]; rfl) (fun i k s hs e j he => by
    rw [inc i k s hs] at he; cases he) S0
  have all : ∀ M, M ≤ N → ∃ k, ∀ m, k ≤ m → ∀ i, i < M → ∃ g, mrun C.sym C.P ((List.range m).map f) g0 = some g ∧ C.Done i g := by
    intro M
    induction M with
    | zero => exact fun _ => ⟨0, fun _ _ i hi => absurd hi (Nat.not_lt_zero _)⟩
    | succ M ih =>
      intro hM
      obtain ⟨k1, h1⟩ := ih (by omega)
      obtain ⟨k2, h2⟩ := C56_ends C h S0 g0 hs hd he f M (hf M (by omega))
      refine ⟨k1 + k2, fun m hm i hi => ?_⟩
      by_cases e : i = M
      · subst e; exact h2 m (by omega)
      · exact h1 m (by omega) i (by omega)
  obtain ⟨k, hk⟩ := all N (Nat.le_refl _)
  obtain ⟨S, g, did, h1, h2, h3, h4, h5, -⟩ := C56_refines C h S0 g0 hs hd f
  refine ⟨k, fun m hm => ⟨g m, h2 m, fun i hi => ?_, fun j hj => ?_⟩⟩
  · obtain ⟨g', e1, e2⟩ := hk m hm i hi
    rw [h2 m] at e1
    cases e1
    exact e2
  · have count : ∀ m, (S m).A x = CTy.conv (C.O x) (S0.A x + sumTo (fun i => ((S m).th i).1) N) := by
      intro m
      induction m with
      | zero =>
        rw [h1, sumTo_congr (g := fun _ => 0) N fun i _ => (hs.pc i).1]
        have z : ∀ N, sumTo (fun _ => 0) N = 0 := fun N => by induction N with | zero => rfl | succ N ih => rw [sumTo, ih]
        rw [z]
        show _ = CTy.conv (C.O x) (S0.A x + 0)
        rw [Int.add_zero]; exact (CTy.conv_id _ _ (hs.ok.1 x)).symm
      | succ m ih =>
        by_cases hm : did m
        · obtain ⟨e1, e2⟩ := h3 m hm
          exact count_run (p := C.prog) ht hcode hN ih e2 e1
        · rw [h4 m hm]; exact ih
    rw [(h5 m).objs x hx j hj, count m, sumTo_congr (g := n) N fun i hi => ?_]
    obtain ⟨g', e1, e2⟩ := hk m hm i hi
    rw [h2 m] at e1
    cases e1
    rw [((h5 m).done i e2).1, hcode, List.length_replicate]

/-! ### Examples -/

/-- Variables 0 (`r`) and hidden variables 1 to 12, all `int` except the addresses. -/
def atE : Env :=
  ⟨fun x => if x = 1 ∨ x = 9 then .ulong else .int, fun x => x < 13, fun x => .frame (-(8 * ((x : Int) + 1))), 104, 4, fun g => 0x404000 + BitVec.ofNat 64 (4 * g), 0x7fff0000⟩

/-- Thread 0: `r = a++; b = r;`. Thread 1: `do r = b; while (r); a += r;`. -/
def atC : Comp where
  hs := fun _ _ x _ => x
  opt := true
  O := fun _ => .int
  objs := fun g => g < 2
  sym := fun g => 0x404000 + BitVec.ofNat 64 (4 * g)
  E := fun _ => atE
  hid := fun _ k j => 1 + 4 * k + j
  code := fun i =>
    if i = 0 then [.rmw (some 0) true 0 (.ar .add) (.num .int 1), .store 1 (.var 0)]
    else if i = 1 then [.load 0 1, .branch (.var 0) 0, .rmw none false 0 (.ar .add) (.var 0)]
    else []
  c := fun _ => 0

def atS : Atomic.State := ⟨fun g => if g = 0 then 41 else 0, fun _ => (0, fun _ => 0)⟩
def atG : MSt := ⟨wr (fun _ => 0) 0x404000 4 41, fun _ => (0, ⟨fun r => if r = .bp then 0x7fff0000 else 0, fun _ => 0, none⟩)⟩

theorem atE_ok : atE.Ok := by
  refine frame_ok atE (fun x => -(8 * ((x : Int) + 1))) (fun _ _ => rfl) (fun x hx => ?_) (fun x y hx hy hxy => ?_) (by decide)
  · have hx : x < 13 := hx
    have hs : atE.size x ≤ 8 := by unfold Env.size atE; dsimp only; split <;> decide
    show -(104 : Int) ≤ _ ∧ _
    omega
  · have h1 : atE.size x ≤ 8 := by unfold Env.size atE; dsimp only; split <;> decide
    have h2 : atE.size y ≤ 8 := by unfold Env.size atE; dsimp only; split <;> decide
    omega

theorem not_hidden0 (i : Nat) : ¬ (atC.thr i).Hidden 0 := by
  rintro ⟨k, j, _, e⟩
  have e : 0 = 1 + 4 * k + j := e
  omega

theorem atC_stmts (i k : Nat) (s : Atomic.Stmt) (hs : (atC.thr i).code[k]? = some s) : (atC.thr i).StmtOk k s := by
  have hs : (atC.code i)[k]? = some s := hs
  have hd : ∀ k j, k < 3 → j < 4 → (atC.thr i).E.dom ((atC.thr i).hid k j) := fun k j hk hj => by show 1 + 4 * k + j < 13; omega
  have inj : ∀ k a b, a < 4 → b < 4 → (atC.thr i).hid k a = (atC.thr i).hid k b → a = b := fun k a b _ _ e => by
    have e : 1 + 4 * k + a = 1 + 4 * k + b := e
    omega
  have h0 : (atC.thr i).E.dom 0 ∧ ¬ (atC.thr i).Hidden 0 := ⟨by show 0 < 13; decide, not_hidden0 i⟩
  unfold atC at hs
  dsimp only at hs
  split at hs
  · match k, hs with
    | 0, hs =>
      cases hs
      exact ⟨fun e he => by cases he; decide, fun e he _ => by cases he; trivial, fun x hx => by simp [Stmt.vars, Expr.vars] at hx; subst hx; exact h0,
        fun g hg => by cases List.mem_singleton.1 hg; show 0 < 2; decide, by show CTy.int ≠ .bool; decide, (fun _ _ h => by cases h), (fun _ _ h => by cases h),
        fun r post g op e h => by cases h; exact ⟨fun j hj => hd 0 j (by decide) hj, inj 0, rfl, rfl, rfl, rfl⟩, (fun _ _ _ _ _ _ h => by cases h)⟩
    | 1, hs =>
      cases hs
      exact ⟨fun e he => by cases he; trivial, fun e he _ => by cases he; trivial, fun x hx => by simp [Stmt.vars, Expr.vars] at hx; subst hx; exact h0,
        fun g hg => by cases List.mem_singleton.1 hg; show 1 < 2; decide, Or.inr ⟨by show CTy.int ≠ .bool; decide, Or.inl (by show 4 ≤ 4; decide)⟩, (fun _ _ h => by cases h),
        fun g e h => by cases h; exact ⟨hd 1 0 (by decide) (by decide), rfl⟩, (fun _ _ _ _ _ h => by cases h), (fun _ _ _ _ _ h => by cases h)⟩
    | k + 2, hs => cases hs
  · split at hs
    · match k, hs with
      | 0, hs =>
        cases hs
        exact ⟨(fun _ h => by cases h), (fun _ h => by cases h), fun x hx => by simp [Stmt.vars] at hx; subst hx; exact h0,
          fun g hg => by cases List.mem_singleton.1 hg; show 1 < 2; decide, ⟨by show CTy.int ≠ .bool; decide, Nat.le_refl _⟩, (fun _ _ h => by cases h), (fun _ _ h => by cases h),
          (fun _ _ _ _ _ h => by cases h), (fun _ _ _ _ _ h => by cases h)⟩
      | 1, hs =>
        cases hs
        exact ⟨fun e he => by cases he; trivial, fun e he _ => by cases he; trivial, fun x hx => by simp [Stmt.vars, Expr.vars] at hx; subst hx; exact h0,
          (fun _ h => by cases h), trivial, fun e j h => by cases h; exact Nat.zero_le _, (fun _ _ h => by cases h), (fun _ _ _ _ _ h => by cases h), (fun _ _ _ _ _ h => by cases h)⟩
      | 2, hs =>
        cases hs
        exact ⟨fun e he => by cases he; trivial, fun e he _ => by cases he; trivial, fun x hx => by simp [Stmt.vars, Expr.vars] at hx; subst hx; exact h0,
          fun g hg => by cases List.mem_singleton.1 hg; show 0 < 2; decide, trivial, (fun _ _ h => by cases h), (fun _ _ h => by cases h),
          fun r post g op e h => by cases h; exact ⟨fun j hj => hd 2 j (by decide) hj, inj 2, rfl, rfl, rfl, rfl⟩, (fun _ _ _ _ _ _ h => by cases h)⟩
      | k + 3, hs => cases hs
    · cases hs

theorem atC_room (i : Nat) : (atC.thr i).gen.st ≤ (atC.thr i).E.K := by
  by_cases h0 : i = 0
  · subst h0; decide
  by_cases h1 : i = 1
  · subst h1; decide
  have e : (atC.thr i).code = [] := by
    show atC.code i = []
    unfold atC
    dsimp only
    rw [if_neg h0, if_neg h1]
  unfold Thr.gen atomicCode
  rw [e]
  exact Nat.zero_le _

theorem atC_ok : atC.Ok where
  thr := fun i => ⟨atE_ok, atC_room i, atC_stmts i⟩
  sym := fun _ => rfl
  objs := fun g g' hg hg' hne => by
    have hg : g < 2 := hg
    have hg' : g' < 2 := hg'
    have : (g = 0 ∧ g' = 1) ∨ (g = 1 ∧ g' = 0) := by omega
    rcases this with ⟨rfl, rfl⟩ | ⟨rfl, rfl⟩ <;> intro c ⟨h1, h2⟩ <;> unfold InBlk at h1 h2 <;> revert h1 h2
    · show (c - 0x404000#64).toNat < 4 → (c - 0x404004#64).toNat < 4 → False
      intro h1 h2
      have := c.isLt
      simp only [BitVec.toNat_sub, BitVec.toNat_ofNat] at h1 h2
      omega
    · show (c - 0x404004#64).toNat < 4 → (c - 0x404000#64).toNat < 4 → False
      intro h1 h2
      have := c.isLt
      simp only [BitVec.toNat_sub, BitVec.toNat_ofNat] at h1 h2
      omega

theorem atStart : atC.Start atS atG where
  ok := ⟨fun g => by show CTy.InRange .int (if g = 0 then 41 else 0); split <;> decide,
    fun i x => by show CTy.InRange (if x = 1 ∨ x = 9 then .ulong else .int) 0; split <;> decide⟩
  objs := fun g hg j hj => by
    have hg : g < 2 := hg
    have hj : j < 4 := hj
    have hg1 : g = 0 ∨ g = 1 := by omega
    have hj1 : j = 0 ∨ j = 1 ∨ j = 2 ∨ j = 3 := by omega
    clear hg hj
    rcases hg1 with rfl | rfl <;> rcases hj1 with rfl | rfl | rfl | rfl <;> decide
  pc := fun _ => ⟨rfl, rfl⟩
  bp := fun _ => rfl
  vars := fun i x _ j _ => by
    show (0 : BitVec 8) = (BitVec.ofInt 64 0 >>> (8 * j)).setWidth 8
    simp

theorem atDefined : atC.prog.Defined atS := by
  refine defined_of (fun i k s hs A σ => ?_) _
  have hs : (atC.code i)[k]? = some s := hs
  unfold atC at hs
  dsimp only at hs
  split at hs
  · match k, hs with
    | 0, hs => cases hs; exact ⟨_, rfl⟩
    | 1, hs => cases hs; exact ⟨_, rfl⟩
    | k + 2, hs => cases hs
  · split at hs
    · match k, hs with
      | 0, hs => cases hs; exact ⟨_, rfl⟩
      | 1, hs => cases hs; exact ⟨_, rfl⟩
      | 2, hs => cases hs; exact ⟨_, rfl⟩
      | k + 3, hs => cases hs
    · cases hs

/-- The hypotheses of `C56_refines` hold of these threads. -/
example (f : Nat → Nat) : ∃ (S : Nat → Atomic.State) (g : Nat → MSt), ∀ n, mrun atC.sym atC.P ((List.range n).map f) atG = some (g n) ∧ atC.Shows (S n) (g n) := by
  obtain ⟨S, g, _, _, h1, _, _, h2, _⟩ := C56_refines atC atC_ok atS atG atStart atDefined f
  exact ⟨S, g, fun n => ⟨h1 n, h2 n⟩⟩

/-- Two threads that increment an `_Atomic unsigned char`, one twice and one once. -/
def cntE : Env :=
  ⟨fun x => if x % 4 = 0 then .ulong else if x % 4 = 1 then .int else .uchar, fun x => x < 8, fun x => .frame (-(8 * ((x : Int) + 1))), 64, 4, fun _ => 0x404000, 0x7fff0000⟩

def cntN (i : Nat) : Nat := if i = 0 then 2 else if i = 1 then 1 else 0

def cntC : Comp where
  hs := fun _ _ x _ => x
  opt := false
  O := fun _ => .uchar
  objs := fun g => g = 0
  sym := fun _ => 0x404000
  E := fun _ => cntE
  hid := fun _ k j => 4 * k + j
  code := fun i => List.replicate (cntN i) (incStmt 0)
  c := fun _ => 0

def cntS : Atomic.State := ⟨fun _ => 254, fun _ => (0, fun _ => 0)⟩
def cntG : MSt := ⟨wr (fun _ => 0) 0x404000 1 254, fun _ => (0, ⟨fun r => if r = .bp then 0x7fff0000 else 0, fun _ => 0, none⟩)⟩

theorem cntE_ok : cntE.Ok := by
  have hs : ∀ x, cntE.size x ≤ 8 := fun x => by unfold Env.size cntE; dsimp only; split <;> (try split) <;> decide
  refine frame_ok cntE (fun x => -(8 * ((x : Int) + 1))) (fun _ _ => rfl) (fun x hx => ?_) (fun x y hx hy hxy => ?_) (by decide)
  · have hx : x < 8 := hx
    have := hs x
    show -(64 : Int) ≤ _ ∧ _
    omega
  · have := hs x
    have := hs y
    omega

theorem cntC_ok : cntC.Ok where
  thr := fun i => by
    refine ⟨cntE_ok, ?_, fun k s hs => ?_⟩
    · by_cases h0 : i = 0
      · subst h0; decide
      by_cases h1 : i = 1
      · subst h1; decide
      have e : (cntC.thr i).code = [] := by
        show List.replicate (cntN i) _ = []
        unfold cntN
        rw [if_neg h0, if_neg h1]
        rfl
      unfold Thr.gen atomicCode
      rw [e]
      exact Nat.zero_le _
    · have hs : (List.replicate (cntN i) (incStmt 0))[k]? = some s := hs
      have hk : k < 2 := by
        obtain ⟨h, -⟩ := List.getElem?_eq_some_iff.1 hs
        rw [List.length_replicate] at h
        unfold cntN at h
        split at h
        · exact h
        · split at h <;> omega
      have := List.eq_of_mem_replicate (List.mem_of_getElem? hs)
      subst this
      exact ⟨fun e he => by cases he; decide, (fun _ _ h => by cases h), (fun _ h => by cases h), fun g hg => by cases List.mem_singleton.1 hg; rfl, trivial,
        (fun _ _ h => by cases h), (fun _ _ h => by cases h), fun r post g op e h => by
          cases h
          refine ⟨fun j hj => ?_, fun a b _ _ e => ?_, ?_, ?_, ?_, ?_⟩
          · show 4 * k + j < 8; omega
          · have e : 4 * k + a = 4 * k + b := e
            omega
          · show (if (4 * k + 0) % 4 = 0 then CTy.ulong else if (4 * k + 0) % 4 = 1 then .int else .uchar) = _; rw [if_pos (by omega)]
          · show (if (4 * k + 1) % 4 = 0 then CTy.ulong else if (4 * k + 1) % 4 = 1 then .int else .uchar) = _; rw [if_neg (by omega), if_pos (by omega)]; rfl
          · show (if (4 * k + 2) % 4 = 0 then CTy.ulong else if (4 * k + 2) % 4 = 1 then .int else .uchar) = _; rw [if_neg (by omega), if_neg (by omega)]; rfl
          · show (if (4 * k + 3) % 4 = 0 then CTy.ulong else if (4 * k + 3) % 4 = 1 then .int else .uchar) = _; rw [if_neg (by omega), if_neg (by omega)]; rfl,
        fun r post g op e h _ => by show CTy.uchar ≠ .bool; decide⟩
  sym := fun _ => rfl
  objs := fun g g' hg hg' hne => absurd (show g = g' by rw [show g = 0 from hg, show g' = 0 from hg']) hne

theorem cntStart : cntC.Start cntS cntG where
  ok := ⟨fun g => by show CTy.InRange .uchar 254; decide,
    fun i x => by show CTy.InRange (if x % 4 = 0 then .ulong else if x % 4 = 1 then .int else .uchar) 0; split <;> (try split) <;> decide⟩
  objs := fun g hg j hj => by
    have hg1 : g = 0 := hg
    have hj : j < 1 := hj
    have hj1 : j = 0 := by omega
    clear hg hj
    subst hg1 hj1
    decide
  pc := fun _ => ⟨rfl, rfl⟩
  bp := fun _ => rfl
  vars := fun i x _ j _ => by
    show (0 : BitVec 8) = (BitVec.ofInt 64 0 >>> (8 * j)).setWidth 8
    simp

/-- 254 and three increments make 257, which is 1 as an `unsigned char`. -/
example (f : Nat → Nat) (hf : ∀ i, i < 2 → ∀ n, ∃ k, n ≤ k ∧ f k = i) :
    ∃ k, ∀ m, k ≤ m → ∃ g, mrun cntC.sym cntC.P ((List.range m).map f) cntG = some g ∧ cntC.Done 0 g ∧ cntC.Done 1 g ∧ g.sh 0x404000 = 1 := by
  obtain ⟨k, hk⟩ := C56_counter cntC cntC_ok cntS cntG cntStart 0 2 cntN rfl (by decide) (fun _ => rfl)
    (fun i hi => by unfold cntN; rw [if_neg (by omega), if_neg (by omega)]) f hf
  refine ⟨k, fun m hm => ?_⟩
  obtain ⟨g, h1, h2, h3⟩ := hk m hm
  exact ⟨g, h1, h2 0 (by decide), h2 1 (by decide), h3 0 (by decide)⟩

/-! ### A departure -/

/-- `_Atomic long a; a = -1;` -/
def wideC : Comp where
  hs := fun _ _ x _ => x
  opt := true
  O := fun _ => .long
  objs := fun g => g = 0
  sym := fun _ => 0x404000
  E := fun _ => ⟨fun _ => .int, fun x => x < 4, fun x => .frame (-(8 * ((x : Int) + 1))), 32, 4, fun _ => 0x404000, 0x7fff0000⟩
  hid := fun _ _ j => j
  code := fun i => if i = 0 then [.store 0 (.un .neg (.num .int 1))] else []
  c := fun _ => 0

def wideS : Atomic.State := ⟨fun _ => 0, fun _ => (0, fun _ => 0)⟩
def wideG : MSt := ⟨fun _ => 0, fun _ => (0, ⟨fun r => if r = .bp then 0x7fff0000 else 0, fun _ => 0, none⟩)⟩

/-- A value assigned to an atomic object is not converted to its type: `_Atomic long a; a = -1;`
stores 4294967295. (The parser leaves out the conversion that it puts into other assignments,
parse.c:3275-3287; this is why `Stmt.Fine` is in the hypotheses above.) -/
theorem C56_store_not_converted : wideC.Start wideS wideG ∧
    (∃ S, wideC.prog.run [0] wideS = .ok S ∧ S.A 0 = -1) ∧
    ∃ g, mrun wideC.sym wideC.P (List.replicate 8 0) wideG = some g ∧ wideC.Done 0 g ∧ rd g.sh 0x404000 8 = 4294967295 := by
  refine ⟨⟨⟨fun _ => by show CTy.InRange .long 0; decide, fun _ _ => by show CTy.InRange .int 0; decide⟩, fun g _ j _ => ?_, fun _ => ⟨rfl, rfl⟩, fun _ => rfl, fun i x _ j _ => ?_⟩, ⟨_, rfl, rfl⟩, ?_⟩
  · show (0 : BitVec 8) = (BitVec.ofInt 64 0 >>> (8 * j)).setWidth 8
    simp
  · show (0 : BitVec 8) = (BitVec.ofInt 64 0 >>> (8 * j)).setWidth 8
    simp
  · have key : (mrun wideC.sym wideC.P (List.replicate 8 0) wideG).map (fun g => (decide ((wideC.P 0).length ≤ (g.th 0).1), rd g.sh 0x404000 8)) = some (true, 4294967295) := by decide
    obtain ⟨g, h1, h2⟩ := Option.map_eq_some_iff.1 key
    simp only [Prod.mk.injEq, decide_eq_true_eq] at h2
    exact ⟨g, h1, h2.1, h2.2⟩

end Slimcc.Props
