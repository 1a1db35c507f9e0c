import Verif.Lemmas.FnAt
import Verif.Props.C30
/-!
C50: compiled statements follow C control flow.

`Spec.cstep` (Spec/CStmt) is the C abstract machine for statements; `compileFn` (Model/Stmt) is the
parser's treatment of labels and jumps followed by the code generator, for a function body up to
the label of its epilogue. The statements hold for `if`, `switch`, all loops, `break`, `continue`,
`goto`, labels, `return` and expression statements, nested in any way, with optimisation on and
off.
-/
set_option autoImplicit false
namespace Slimcc.Props
open Slimcc Slimcc.Spec Slimcc.Spec.CTy Slimcc.Ty Slimcc.X86 Slimcc.Gen

/-- The requirements on a function body: its expressions are well formed, use variables in scope,
and (with optimisation) have no unsequenced assignments; label names are distinct; no case range is
empty; there are no calls (those are in Props/C65). -/
structure FnOk (opt : Bool) (E : Env) (f : Stmt) : Prop where
  wf : ∀ e ∈ f.exprs, e.Wf
  vars : ∀ e ∈ f.exprs, ∀ x ∈ e.vars, E.dom x
  seq : opt = true → ∀ e ∈ f.exprs, e.Sequenced
  names : f.names.Nodup
  cases : f.CasesOk (fun _ => False) E.Γ

/-- A machine state in which the activation `E` holds the store `σ`. -/
structure Holds (E : Env) (σ : Store) (s : St) : Prop where
  sok : StoreOk E.Γ σ
  bp : s.r .bp = E.bp
  rel : Rel E σ s.m

/-- The store of a state of the C program. -/
def stOf : State → Store
  | .run _ _ _ σ => σ
  | .done _ σ => σ

section
variable {hs : HostShift} {opt : Bool} {E : Env} {rty : CTy} {f : Stmt} {id c : Nat} {o : Out}

theorem match_holds {X : Cx} {m0 : Word → BitVec 8} {x : State} {d : Nat × St} (hs : ∀ a, ¬ X.scr a) (h : Match X m0 x d) :
    Holds X.E (stOf x) d.2 ∧ ∀ a, X.E.Outside X.E.K a → d.2.m a = m0 a := by
  cases h with
  | run _ _ g => exact ⟨⟨g.sok, g.bp, g.rel⟩, fun a ha => g.out a ha (hs a)⟩
  | done g _ => exact ⟨⟨g.sok, g.bp, g.rel⟩, fun a ha => g.out a ha (hs a)⟩

theorem fresh_noCall (c : CallS) : Fresh (noCall c) := fresh_lines [] rfl

/-- The position of a compiled function. -/
theorem fn_setup (hE : E.Ok) (hf : FnOk opt E f) (hc : compileFn hs opt E.Γ E.loc E.stk noCall rty f id c = some o) (hK : o.st ≤ E.K) (sp : Word) :
    ∃ X : Cx, X.Ok ∧ X.E = E ∧ X.P = o.code ∧ X.rty = rty ∧ X.ex + 1 = o.code.length ∧ At X [] [] f 0 X.ex ∧ X.O = noFns ∧ X.sp = sp ∧ (∀ a, ¬ X.scr a) ∧
      ∀ n c c', X.R n c c' → steps E.sym o.code n c = some c' := by
  obtain ⟨lm, ex, h1, h2, h3, h4⟩ := fn_at (rule := fun _ => False) noFns sp (fun _ => False) (fun n c c' => steps E.sym o.code n c = some c') fresh_noCall
    ⟨hf.wf, hf.vars, hf.seq, hf.names, hf.cases⟩ hc hK [] [] rfl rfl
  simp only [List.nil_append, List.append_nil, List.length_nil, Nat.zero_add] at h1 h2 h3 h4
  refine ⟨_, ⟨hE, h1, h2, fun n c c' h => h, fun n m a b c h h' => ?_, fun m0 c pc pc' σ σ1 σ2 σ3 vs v s h => False.elim h.1.2.1⟩, rfl, rfl, rfl, h3, h4, rfl, rfl, fun _ h => h, fun _ _ _ h => h⟩
  show steps E.sym o.code (n + m) a = some c
  rw [steps_add, show steps E.sym o.code n a = some b from h]
  exact h'

theorem start_match {X : Cx} {s : St} {σ : Store} (ha : At X [] [] f 0 X.ex) (h : Holds X.E σ s) (hsp : X.sp = s.r .sp) : Match X s.m (.run [] f .stop σ) (0, s) :=
  .run ha .stop ⟨h.sok, h.bp, h.rel, hsp.symm, fun _ _ _ => rfl⟩

/-- A function that returns: its code, started anywhere in memory with any register content, runs to
its end; memory then holds the final store, %rax the returned value, and nothing but the variables
and temporaries has changed. -/
theorem C50_returns (σ σ' : Store) (v : Option Int) (s : St) (hE : E.Ok) (hf : FnOk opt E f)
    (hc : compileFn hs opt E.Γ E.loc E.stk noCall rty f id c = some o) (hK : o.st ≤ E.K) (h : Holds E σ s) (hr : Returns noFns E.Γ rty f σ v σ') :
    ∃ s', Runs E.sym o.code (0, s) (o.code.length, s') ∧ Holds E σ' s' ∧ (∀ x, v = some x → InReg rty x (s'.r .ax)) ∧
      ∀ a, E.Outside E.K a → s'.m a = s.m a := by
  obtain ⟨X, hX, rfl, hP, rfl, hex, ha, hO, hsp, hscr, hR⟩ := fn_setup hE hf hc hK (s.r .sp)
  obtain ⟨n, hn⟩ := hr
  obtain ⟨k, d, r, m⟩ := csteps_sim hX ha n (start_match ha h hsp) (by rw [hO]; exact hn)
  obtain ⟨m1, m2⟩ := match_holds hscr m
  cases m with
  | @done _ _ st g hv =>
    refine ⟨st, ?_, m1, fun x h => (hv x h).2, m2⟩
    have r := hR _ _ _ r
    rw [← hP, ← hex] at *
    exact Runs.trans ⟨k, r⟩ (lab_run hX.ret st).runs

/-- A function that runs forever keeps the machine running forever: after any number of steps there
is a next one. In particular the machine neither faults nor reaches the end. -/
theorem C50_forever (σ : Store) (s : St) (hE : E.Ok) (hf : FnOk opt E f)
    (hc : compileFn hs opt E.Γ E.loc E.stk noCall rty f id c = some o) (hK : o.st ≤ E.K) (h : Holds E σ s) (hr : Forever noFns E.Γ rty f σ) (n : Nat) :
    ∃ d, steps E.sym o.code n (0, s) = some d := by
  obtain ⟨X, hX, rfl, hP, rfl, hex, ha, hO, hsp, hscr, hR⟩ := fn_setup hE hf hc hK (s.r .sp)
  rw [← hP]
  obtain ⟨m, d, hm, hd⟩ := forever_sim hX ha n _ (Nat.le_refl _) (start_match ha h hsp) (by rw [hO]; exact hr)
  have hd := hR _ _ _ hd
  rw [← hP] at hd
  cases hn : steps X.E.sym X.P n (0, s) with
  | some d => exact ⟨d, rfl⟩
  | none =>
    have := steps_none n (m - n) hn
    rw [show n + (m - n) = m by omega, hd] at this
    cases this

/-- The C program never comes to a point where its behaviour is undefined. -/
def Defined (Γ : Nat → CTy) (rty : CTy) (f : Stmt) (σ : Store) : Prop :=
  ∀ n x, csteps noFns Γ rty f n (.run [] f .stop σ) = some x → (∃ v σ', x = .done v σ') ∨ ∃ y, cstep noFns Γ rty f x = some y

theorem csteps_last {Γ : Nat → CTy} : ∀ (n : Nat) (x y : State), csteps noFns Γ rty f (n + 1) x = some y ↔ ∃ z, csteps noFns Γ rty f n x = some z ∧ cstep noFns Γ rty f z = some y
  | 0, x, y => by
    simp only [csteps]
    cases h : cstep noFns Γ rty f x with
    | none => simp [h]
    | some z => simp [h]
  | n + 1, x, y => by
    have e : csteps noFns Γ rty f (n + 1 + 1) x = (cstep noFns Γ rty f x).bind (csteps noFns Γ rty f (n + 1)) := rfl
    have e' : csteps noFns Γ rty f (n + 1) x = (cstep noFns Γ rty f x).bind (csteps noFns Γ rty f n) := rfl
    rw [e, e']
    cases h : cstep noFns Γ rty f x with
    | none => simp
    | some w => simpa using csteps_last n w y

theorem defined_cases {Γ : Nat → CTy} {σ : Store} (h : Defined Γ rty f σ) : (∃ v σ', Returns noFns Γ rty f σ v σ') ∨ Forever noFns Γ rty f σ := by
  by_cases hr : ∃ v σ', Returns noFns Γ rty f σ v σ'
  · exact Or.inl hr
  · refine Or.inr fun n => ?_
    induction n with
    | zero => exact ⟨_, rfl⟩
    | succ n ih =>
      obtain ⟨x, hx⟩ := ih
      rcases h n x hx with ⟨v, σ', rfl⟩ | ⟨y, hy⟩
      · exact absurd ⟨v, σ', n, hx⟩ hr
      · exact ⟨y, (csteps_last n _ _).2 ⟨x, hx, hy⟩⟩

/-- The code reaches its end exactly when the function returns. -/
theorem C50_terminates (σ : Store) (s : St) (hE : E.Ok) (hf : FnOk opt E f)
    (hc : compileFn hs opt E.Γ E.loc E.stk noCall rty f id c = some o) (hK : o.st ≤ E.K) (h : Holds E σ s) (hd : Defined E.Γ rty f σ) :
    (∃ s', Runs E.sym o.code (0, s) (o.code.length, s')) ↔ ∃ v σ', Returns noFns E.Γ rty f σ v σ' := by
  refine ⟨fun ⟨s', k, hk⟩ => ?_, fun ⟨v, σ', hr⟩ => let ⟨s', r, _⟩ := C50_returns σ σ' v s hE hf hc hK h hr; ⟨s', r⟩⟩
  rcases defined_cases hd with h1 | h1
  · exact h1
  · obtain ⟨d, hd⟩ := C50_forever σ s hE hf hc hK h h1 (k + 1)
    rw [steps_add, hk] at hd
    simp [steps, step] at hd

theorem dep_choice {α : Type} [Nonempty α] (R : Nat → α → Prop) (S : α → α → Prop) (h0 : ∃ a, R 0 a) (hs : ∀ n a, R n a → ∃ b, R (n + 1) b ∧ S a b) :
    ∃ g : Nat → α, ∀ n, R n (g n) ∧ S (g n) (g (n + 1)) := by
  classical
  obtain ⟨a0, h0⟩ := h0
  let nxt : Nat → α → α := fun n a => if h : R n a then (hs n a h).choose else a
  let g : Nat → α := fun n => Nat.rec a0 (fun n a => nxt n a) n
  have hg : ∀ n, R n (g n) := by
    intro n
    induction n with
    | zero => exact h0
    | succ n ih =>
      show R (n + 1) (nxt n (g n))
      simp only [nxt, dif_pos ih]
      exact (hs n (g n) ih).choose_spec.1
  refine ⟨g, fun n => ⟨hg n, ?_⟩⟩
  show S (g n) (nxt n (g n))
  simp only [nxt, dif_pos (hg n)]
  exact (hs n (g n) (hg n)).choose_spec.2

/-- The machine goes through the states of the C program in their order: there are times, one after
the other, at which memory holds the store the C program has after 0, 1, 2, ... steps. -/
theorem C50_trace (σ : Store) (s : St) (hE : E.Ok) (hf : FnOk opt E f)
    (hc : compileFn hs opt E.Γ E.loc E.stk noCall rty f id c = some o) (hK : o.st ≤ E.K) (h : Holds E σ s) :
    ∃ time : Nat → Nat, (∀ n, time n ≤ time (n + 1)) ∧ ∀ n x, csteps noFns E.Γ rty f n (.run [] f .stop σ) = some x →
      ∃ d, steps E.sym o.code (time n) (0, s) = some d ∧ Holds E (stOf x) d.2 ∧ ∀ a, E.Outside E.K a → d.2.m a = s.m a := by
  obtain ⟨X, hX, rfl, hP, rfl, hex, ha, hO, hsp, hscr, hR⟩ := fn_setup hE hf hc hK (s.r .sp)
  rw [← hP]
  obtain ⟨time, ht⟩ := dep_choice (fun n k => ∀ x, csteps noFns X.E.Γ X.rty f n (.run [] f .stop σ) = some x → ∃ d, steps X.E.sym X.P k (0, s) = some d ∧ Match X s.m x d)
    (· ≤ ·) ⟨0, fun x hx => by injection hx with hx; subst hx; exact ⟨_, rfl, start_match ha h hsp⟩⟩ (fun n k hk => by
      cases hn : csteps noFns X.E.Γ X.rty f (n + 1) (.run [] f .stop σ) with
      | none => exact ⟨k, ⟨fun x hx => (by cases hx), Nat.le_refl _⟩⟩
      | some y =>
        obtain ⟨x, hx, hy⟩ := (csteps_last n _ _).1 hn
        obtain ⟨d, hd, hm⟩ := hk x hx
        obtain ⟨j, d', hd', hm', _⟩ := step_sim hX ha hm (by rw [hO]; exact hy)
        have hd' := hR _ _ _ hd'
        rw [← hP] at hd'
        refine ⟨k + j, ⟨fun z hz => ?_, Nat.le_add_right _ _⟩⟩
        injection hz with hz; subst hz
        exact ⟨d', by rw [steps_add, hd]; exact hd', hm'⟩)
  refine ⟨time, fun n => (ht n).2, fun n x hx => ?_⟩
  obtain ⟨d, hd, hm⟩ := (ht n).1 x hx
  exact ⟨d, hd, match_holds hscr hm⟩

/-- No label is defined twice in a function, whatever its body. -/
theorem C50_labels (hc : compileFn hs opt E.Γ E.loc E.stk noCall rty f id c = some o) : UniqueLabels o.code := by
  unfold compileFn at hc
  obtain ⟨n', hn, rfl⟩ := Option.map_eq_some_iff.1 hc
  unfold parseBody at hn
  simp only [Option.bind_eq_bind] at hn
  obtain ⟨⟨n, p⟩, hp, hr⟩ := Option.bind_eq_some_iff.1 hn
  exact compileBody_unique _ _ _ _ _ _ _ fresh_noCall n' (by rw [defs_resolve _ _ _ hr]; exact (parse_defs _ _ _ _ _ _ _ _ hp).2.1) c

end

/-! A case meeting the hypotheses, with the activation of Props/C30:
`z = 0; again: for (y = 0; y < 3; y++) switch (y) { case 0 ... 1: z += 10; continue; default: z++; }
if (z < 40) goto again; return z * 2;` -/

def exFn : Stmt :=
  .seq (.expr (.assign 2 (.num .int 0)))
    (.seq (.lab [.user 7] (.loop (some (.assign 1 (.num .int 0))) (some (.cmp .lt (.var 1) (.num .int 3))) (some (.opAssign (.ar .add) 1 (.num .int 1)))
        (.switch (.var 1) (.seq (.lab [.case 0 1] (.expr (.opAssign (.ar .add) 2 (.num .int 10)))) (.seq (.cont none)
          (.lab [.dflt] (.expr (.opAssign (.ar .add) 2 (.num .int 1)))))))))
      (.seq (.if_ (.cmp .lt (.var 2) (.num .int 40)) (.goto 7))
        (.ret (some (.bin (.ar .mul) (.var 2) (.num .int 2))))))

/-- What is observed of a final state: the returned value and `z`. -/
def exObs : State → Option (Option Int × Int)
  | .done v σ => some (v, σ 2)
  | _ => none

theorem exReturns : ∃ σ', Returns noFns exΓ .int exFn exStore (some 84) σ' ∧ σ' 2 = 42 := by
  have h : ((csteps noFns exΓ .int exFn 56 (.run [] exFn .stop exStore)).bind exObs) = some (some 84, 42) := by decide +kernel
  obtain ⟨x, hx, ho⟩ := Option.bind_eq_some_iff.1 h
  cases x with
  | run _ _ _ _ => cases ho
  | done v σ =>
    simp only [exObs, Option.some.injEq, Prod.mk.injEq] at ho
    obtain ⟨rfl, h2⟩ := ho
    exact ⟨σ, ⟨56, hx⟩, h2⟩

theorem exFnOk : FnOk true exEnv exFn where
  wf := by
    intro e he
    simp only [exFn, Stmt.exprs, Option.toList, List.cons_append, List.nil_append, List.mem_cons, List.mem_append, List.not_mem_nil, or_false] at he
    rcases he with rfl | rfl | rfl | rfl | rfl | rfl | rfl | rfl | rfl <;> decide
  vars := by
    intro e he
    simp only [exFn, Stmt.exprs, Option.toList, List.cons_append, List.nil_append, List.mem_cons, List.mem_append, List.not_mem_nil, or_false] at he
    rcases he with rfl | rfl | rfl | rfl | rfl | rfl | rfl | rfl | rfl <;> simp [Expr.vars, exEnv]
  seq := by
    intro _ e he
    simp only [exFn, Stmt.exprs, Option.toList, List.cons_append, List.nil_append, List.mem_cons, List.mem_append, List.not_mem_nil, or_false] at he
    rcases he with rfl | rfl | rfl | rfl | rfl | rfl | rfl | rfl | rfl <;> simp [Expr.Sequenced, Expr.vars, Expr.assigned]
  names := by decide
  cases := by
    refine ⟨trivial, ⟨fun lo hi h => ?_, trivial, trivial, trivial⟩, trivial, trivial⟩
    simp [Stmt.labels] at h
    obtain ⟨rfl, rfl⟩ := h
    decide

/-- The code of the function leaves 84 in %eax and 42 in `z`. -/
example : ∃ o s' σ', compileFn exShift true exΓ exEnv.loc 16 noCall .int exFn 0 0 = some o ∧ Runs exEnv.sym o.code (0, exState) (o.code.length, s') ∧
    InReg .int 84 (s'.r .ax) ∧ Rel exEnv σ' s'.m ∧ σ' 2 = 42 := by
  obtain ⟨σ', hr, h2⟩ := exReturns
  cases hc : compileFn exShift true exΓ exEnv.loc 16 noCall .int exFn 0 0 with
  | none =>
    have : (compileFn exShift true exΓ exEnv.loc 16 noCall .int exFn 0 0).isSome = true := by rfl
    rw [hc] at this; cases this
  | some o =>
    have hst : ((compileFn exShift true exΓ exEnv.loc 16 noCall .int exFn 0 0).map (·.st)) = some 0 := by rfl
    rw [hc] at hst
    injection hst with hst
    obtain ⟨s', h3, h4, h5, _⟩ := C50_returns exStore σ' (some 84) exState exEnv_ok exFnOk hc (by rw [show o.st = 0 from hst]; exact Nat.zero_le _) ⟨exStoreOk, rfl, exRel⟩ hr
    exact ⟨o, s', σ', rfl, h3, h5 84 rfl, h4.rel, h2⟩

/-- A loop that does not end: `for (;;) z = 1;`. -/
def exLoop : Stmt := .loop none none none (.expr (.assign 2 (.num .int 1)))

theorem exForever (σ : Store) : Forever noFns exΓ .int exLoop σ := by
  have key : ∀ n σ, ∃ x, csteps noFns exΓ .int exLoop (3 * n) (.run [] exLoop .stop σ) = some x ∧ ∃ σ', x = .run [] exLoop .stop σ' := by
    intro n
    induction n with
    | zero => exact fun σ => ⟨_, rfl, σ, rfl⟩
    | succ n ih =>
      intro σ
      obtain ⟨x, h1, h2⟩ := ih (σ.set 2 1)
      exact ⟨x, h1, h2⟩
  intro n
  obtain ⟨x, hx, σ', rfl⟩ := key n σ
  cases hn : csteps noFns exΓ .int exLoop n (.run [] exLoop .stop σ) with
  | some y => exact ⟨y, rfl⟩
  | none =>
    have add : ∀ (j k : Nat) (x : State), csteps noFns exΓ .int exLoop j x = none → csteps noFns exΓ .int exLoop (j + k) x = none := by
      intro j
      induction j with
      | zero => intro k x h; cases h
      | succ j ih =>
        intro k x h
        rw [Nat.succ_add]
        simp only [csteps] at h ⊢
        cases hx : cstep noFns exΓ .int exLoop x with
        | none => rfl
        | some y =>
          rw [hx] at h
          exact ih k y h
    have := add n (2 * n) _ hn
    rw [show n + 2 * n = 3 * n by omega, hx] at this
    cases this

/-! The parser does not diagnose a label defined twice; `goto` then goes to the last one. -/
example : parseBody true exΓ 0 (.seq (.lab [.user 1] .skip) (.seq (.goto 1) (.lab [.user 1] .skip))) =
    some (.block (.block (.label 0) .null) (.block (.jump 1) (.block (.label 1) .null))) := by rfl

end Slimcc.Props
