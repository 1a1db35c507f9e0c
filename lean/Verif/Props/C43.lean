import Verif.Lemmas.DeferGoto
/-!
C43: deferred statements run in reverse order on every way out of a block.
-/
set_option autoImplicit false
namespace Slimcc.Props
open Slimcc.Spec Slimcc.Dfr Slimcc.DfrL

/-- For every function body: whatever run the specification gives it (falling off blocks, `break`,
`continue` and `return` from any depth, deferred statements in deferred statements), the code goes
from its beginning to its end and shows the same. -/
theorem C43_blocks_loops_returns {body : DStmt} {P : List I} (h : function body = some P) (hP : Assembles P) {t : List DEv} {x : DExit}
    (hr : DRuns (.scope body) t x []) (hx : x = .normal ∨ x = .ret) : Steps P 0 t (P.length - 1) := by
  obtain ⟨n, p, hs, _, rfl⟩ := function_parts h
  have hat : At ((gen p.labels n 0).1 ++ [I.lbl L.rtn]) 0 (gen p.labels n 0).1 := ⟨[], [.lbl .rtn], by simp, rfl⟩
  have hd := sim (ls := p.labels) hP hr [] start n p 0 0 (Or.inr hs) trivial hat
  have hlen : ((gen p.labels n 0).1 ++ [I.lbl L.rtn]).length - 1 = (gen p.labels n 0).1.length := by simp
  rw [hlen]
  rcases hx with rfl | rfl
  · simpa using hd.normal rfl
  · have := hd.jump .rtn .nil [] [] (gen p.labels n 0).1.length .ret .nil Good.nil (posOf_here hP (by simp))
    simpa using this

/-- No label of the code is defined twice, unless there is a loop, a `switch` or a label in a
deferred statement. -/
theorem C43_assembles {body : DStmt} {P : List I} (h : function body = some P) (hp : plainDefers body = true) : Assembles P := function_assembles hp h

/-- A `goto` that is accepted only leaves scopes: what is pending at the label is the lower part of
what is pending at the `goto`. -/
theorem C43_goto_enters_nothing {body : DStmt} {P : List I} (h : function body = some P) {l : Nat} {Q1 : Pend} (hg : Stands (.goto l) body 0 [] Q1) :
    ∃ Q2 R, Stands (.label l) body 0 [] Q2 ∧ Q1 = R ++ Q2 := by
  obtain ⟨n, p, hs, hall, _⟩ := function_parts h
  obtain ⟨E, hm, hc⟩ := (body_recs hs).hasG l Q1 hg
  obtain ⟨⟨u, de⟩, hr⟩ := Option.isSome_iff_exists.mp (hall _ hm)
  obtain ⟨Q2, R, _, h1, h2, _⟩ := resolve_ok hs hc hg hr
  exact ⟨Q2, R, h1, h2⟩

/-- And every `goto` that only leaves scopes is accepted: if nothing is wrong but for jumps, the
function is. -/
theorem C43_goto_accepted {body : DStmt} {n : N} {p : PSt} (hs : stmt (.block body) [] ⟨.nil, 0, 0, [], []⟩ = some (n, p))
    (h : ∀ l Q1, Stands (.goto l) body 0 [] Q1 → ∃ Q2 R, Stands (.label l) body 0 [] Q2 ∧ Q1 = R ++ Q2 ∧ ∀ Q, Stands (.label l) body 0 [] Q → Q = Q2) :
    ∃ P, function body = some P := by
  refine ⟨(gen p.labels n 0).1 ++ [.lbl .rtn], ?_⟩
  unfold function
  simp only [hs]
  rw [if_pos]
  rw [List.all_eq_true]
  intro g hg
  obtain ⟨l, E⟩ := g
  rcases (body_recs hs).allG _ hg with h' | ⟨Q, hS, hc⟩
  · cases h'
  · obtain ⟨Q2, R, h1, h2, h3⟩ := h l Q hS
    exact resolve_some hs hc h1 h2 h3

/-- What a `goto` runs: between the action `m` right before it and the action `m'` right after the
label there is exactly a run of the deferred statements `R` that are pending at the `goto` and not at
the label, the latest first. -/
theorem C43_goto_runs {body : DStmt} {P : List I} (h : function body = some P) (hP : Assembles P) {l m m' : Nat} {Q1 Q2 R : Pend} {t : List DEv}
    (hg : Stands (.seq (.act m) (.goto l)) body 0 [] Q1) (hl : Stands (.seq (.label l) (.act m')) body 0 [] Q2)
    (ho : occ m body = 1) (ho' : occ m' body = 1) (hone : labelled l body = 1) (hR : Q1 = R ++ Q2)
    (hd : DRuns (.defers (R.map (·.2))) t .normal []) {pc q : Nat} (hpc : P[pc]? = some (.act m)) (hq : P[q]? = some (.act m')) :
    Steps P (pc + 1) t q := goto_run h hP hg hl ho ho' hone hR hd hpc hq

/-- A case of a `switch` that is accepted, and is not in a loop inside of the `switch`, has nothing
deferred between the `switch` and itself. -/
theorem C43_case_enters_nothing {body b : DStmt} {P : List I} {Q : Pend} {R : List DStmt} (h : function body = some P) (hsw : Stands (.sw b) body 0 [] Q)
    (hn : Near .case b [] R) : R = [] := function_case h hsw hn

/-! ### Where it does not hold -/

/-- `switch (x) { defer 1; do { case 0: 2; } while (c); }`: the case jumps past the `defer`, and is
accepted, as only the scope of the loop is looked at. -/
theorem C43_case_in_loop_skips_defer : ∃ body P Q, function body = some P ∧ Stands (.sw (.block (.seq (.defer (.act 1)) (.doWhile (.block (.seq .case (.act 2))) 0)))) body 0 [] Q ∧
    Stands .case body 0 [] ((0, .act 1) :: Q) := by
  refine ⟨.sw (.block (.seq (.defer (.act 1)) (.doWhile (.block (.seq .case (.act 2))) 0))), _, [], rfl, .here, ?_⟩
  exact .sw (.block (.right (.doWhile (.block (.left .here)))))

/-- `defer do 1; while (c); if (c) return; `: the code of the loop is there twice, with the same
labels. -/
theorem C43_deferred_loop_twice : ∃ body P, function body = some P ∧ ¬ Assembles P := by
  refine ⟨.seq (.defer (.doWhile (.act 1) 0)) (.ite [] 0 .ret .skip), _, rfl, ?_⟩
  unfold Assembles
  decide

/-! ### Examples -/

/-- `{ defer 1; for (cleanup 2; c; 3) { defer 4; if (c) break; if (c) continue; if (c) goto l; 8; } defer 5; } l: 6;` -/
def deferBody : DStmt :=
  .seq (.block (.seq (.defer (.act 1)) (.seq (.loop [] [2] 0 3 (.block (.seq (.defer (.act 4)) (.seq (.ite [] 1 (.brk 0) .skip)
    (.seq (.ite [] 2 (.cont 0) .skip) (.seq (.ite [] 3 (.block (.seq (.act 7) (.goto 0))) .skip) (.act 8))))))) (.defer (.act 5))))) (.seq (.label 0) (.act 6))

example : ∃ P, function deferBody = some P ∧ Assembles P ∧ 0 < P.length :=
  ⟨_, rfl, C43_assembles (body := deferBody) rfl rfl, by decide⟩

/-- The first time around all conditions but the first are false, the second time the loop is left
with `break`. -/
example : DRuns (.scope deferBody) [.cond 0 true, .cond 1 false, .cond 2 false, .cond 3 false, .act 8, .act 4, .act 3, .act 2,
    .cond 0 true, .cond 1 true, .act 4, .act 2, .act 5, .act 1, .act 6] .normal [] := by
  have d1 : ∀ n, DRuns (.scope (.act n)) [.act n] .normal [] := fun n => .scope (.act (D := [])) .noDefers
  have d2 : ∀ n, DRuns (.defers [.act n]) [.act n] .normal [] := fun n => .defers (d1 n) .noDefers
  have no : ∀ {a b : DStmt} {c : Nat} {D : List DStmt}, DRuns (.scope b) [] .normal [] → DRuns (.st (.ite [] c a b) D) [.cond c false] .normal D :=
    fun h => .ite (v := false) (t := []) (t' := []) h .noDefers
  have sk : DRuns (.scope .skip) [] .normal [] := .scope (t := []) .skip .noDefers
  refine .scope (t := [.cond 0 true, .cond 1 false, .cond 2 false, .cond 3 false, .act 8, .act 4, .act 3, .act 2, .cond 0 true, .cond 1 true, .act 4, .act 2, .act 5, .act 1, .act 6])
    (t' := []) (D := []) ?_ .noDefers
  refine .seq (t1 := [.cond 0 true, .cond 1 false, .cond 2 false, .cond 3 false, .act 8, .act 4, .act 3, .act 2, .cond 0 true, .cond 1 true, .act 4, .act 2, .act 5, .act 1])
    (t2 := [.act 6]) (.block ?_) (.seq (t1 := []) .label .act)
  refine .scope (t := [.cond 0 true, .cond 1 false, .cond 2 false, .cond 3 false, .act 8, .act 4, .act 3, .act 2, .cond 0 true, .cond 1 true, .act 4, .act 2])
    (t' := [.act 5, .act 1]) (D := [.act 5, .act 1]) ?_ (.defers (t := [.act 5]) (d1 5) (d2 1))
  refine .seq (t1 := []) .defer (.seq (t1 := [.cond 0 true, .cond 1 false, .cond 2 false, .cond 3 false, .act 8, .act 4, .act 3, .act 2, .cond 0 true, .cond 1 true, .act 4, .act 2])
    (t2 := []) (D1 := [.act 1]) ?_ .defer)
  refine .loop (t := [.cond 0 true, .cond 1 false, .cond 2 false, .cond 3 false, .act 8, .act 4, .act 3, .act 2, .cond 0 true, .cond 1 true, .act 4, .act 2]) (t' := []) ?_ .noDefers
  refine .iterNext (t := [.cond 1 false, .cond 2 false, .cond 3 false, .act 8, .act 4]) (t' := [.act 2]) (t'' := [.cond 0 true, .cond 1 true, .act 4, .act 2]) (x := .normal) ?_ rfl (d2 2) ?_
  · refine .scope (t := [.cond 1 false, .cond 2 false, .cond 3 false, .act 8, .act 4]) (t' := []) (D := []) (.block ?_) .noDefers
    refine .scope (t := [.cond 1 false, .cond 2 false, .cond 3 false, .act 8]) (t' := [.act 4]) (D := [.act 4]) ?_ (d2 4)
    exact .seq (t1 := []) .defer (.seq (no sk) (.seq (no sk) (.seq (no sk) .act)))
  · refine .iterOut (t := [.cond 1 true, .act 4]) (t' := [.act 2]) (x := .brk 0) ?_ rfl (d2 2)
    refine .scope (t := [.cond 1 true, .act 4]) (t' := []) (D := []) (.block ?_) .noDefers
    refine .scope (t := [.cond 1 true]) (t' := [.act 4]) (D := [.act 4]) ?_ (d2 4)
    refine .seq (t1 := []) .defer (.seqOut ?_ (by simp))
    exact .ite (v := true) (t := []) (t' := []) (.scope (t := []) .brk .noDefers) .noDefers

/-- The `goto` leaves the loop and both blocks: it runs `4`, `2` and `1`. -/
example : Stands (.seq (.act 7) (.goto 0)) deferBody 0 [] [(2, .act 4), (1, .act 2), (0, .act 1)] ∧ Stands (.seq (.label 0) (.act 6)) deferBody 0 [] [] ∧
    occ 7 deferBody = 1 ∧ occ 6 deferBody = 1 ∧ labelled 0 deferBody = 1 ∧
    DRuns (.defers [.act 4, .act 2, .act 1]) [.act 4, .act 2, .act 1] .normal [] := by
  have d1 : ∀ n, DRuns (.scope (.act n)) [.act n] .normal [] := fun n => .scope (.act (D := [])) .noDefers
  refine ⟨?_, .right .here, rfl, rfl, rfl, .defers (d1 4) (.defers (d1 2) (.defers (d1 1) .noDefers))⟩
  exact .left (.block (.right (.left (.loop (.block (.right (.right (.right (.left (.iteThen (.block .here))))))))))) 

/-- A `goto` past a `defer` is refused, and so is a case past one. -/
example : function (.seq (.goto 0) (.seq (.defer (.act 1)) (.label 0))) = none ∧ function (.sw (.block (.seq (.defer (.act 1)) .case))) = none := ⟨rfl, rfl⟩

/-- Deferred statements with the same text are told apart. -/
example : function (.seq (.block (.seq (.defer (.act 1)) (.goto 0))) (.block (.seq (.defer (.act 1)) (.label 0)))) = none := rfl

end Slimcc.Props
