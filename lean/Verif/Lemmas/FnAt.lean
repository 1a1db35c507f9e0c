import Verif.Lemmas.StmtSim
import Verif.Lemmas.StmtLabels
import Verif.Lemmas.StmtGen
/-! Where the body of a compiled function stands in its code. -/
set_option autoImplicit false
namespace Slimcc
open Slimcc.Spec Slimcc.Spec.CTy Slimcc.Ty Slimcc.X86 Slimcc.Gen

/-- The requirements on a function body: its expressions are well formed, use variables in scope,
and (with optimisation) have no unsequenced assignments; label names are distinct; no case range is
empty; calls satisfy `K`. -/
structure BodyOk (K : CallS → Prop) (opt : Bool) (E : Env) (f : Stmt) : Prop where
  wf : ∀ e ∈ f.exprs, e.Wf
  vars : ∀ e ∈ f.exprs, ∀ x ∈ e.vars, E.dom x
  seq : opt = true → ∀ e ∈ f.exprs, e.Sequenced
  names : f.names.Nodup
  cases : f.CasesOk K E.Γ

theorem fn_at {hs : HostShift} {opt : Bool} {E : Env} {rty : CTy} {f : Stmt} {id c : Nat} {o : Out} {rule : CallS → Prop} (O : Oracle) {cc : CallS → G} (sp : Word)
    (scr : Word → Prop) (R : Nat → Nat × St → Nat × St → Prop) (hcc : ∀ c, Fresh (cc c)) (hf : BodyOk rule opt E f)
    (hc : compileFn hs opt E.Γ E.loc E.stk cc rty f id c = some o) (hK : o.st ≤ E.K) (pre post : List Line) (hpre : labs pre = []) (hpost : labs post = []) :
    ∃ lm ex, UniqueLabels (pre ++ o.code ++ post) ∧ (pre ++ o.code ++ post)[ex]? = some (.lab (.rtn c)) ∧ ex + 1 = pre.length + o.code.length ∧
      At ⟨hs, opt, E, pre ++ o.code ++ post, rty, c, lm, ex, rule, O, cc, sp, scr, R⟩ [] [] f pre.length ex := by
  unfold compileFn at hc
  obtain ⟨n', hn, rfl⟩ := Option.map_eq_some_iff.1 hc
  unfold parseBody at hn
  simp only [Option.bind_eq_bind] at hn
  obtain ⟨⟨n, p⟩, hp, hr⟩ := Option.bind_eq_some_iff.1 hn
  dsimp only at hr
  let g := genStmt hs opt E.Γ E.loc E.stk cc rty c n' (c + 1)
  have hB : (compileBody hs opt E.Γ E.loc E.stk cc rty n' c).1.code = g.1.code ++ [.lab (.rtn c)] := rfl
  rw [hB]
  let X : Cx := ⟨hs, opt, E, pre ++ (g.1.code ++ [.lab (.rtn c)]) ++ post, rty, c, lookupLabel p.labels, pre.length + g.1.code.length, rule, O, cc, sp, scr, R⟩
  have hd : (defs n').Nodup := by rw [defs_resolve _ _ _ hr]; exact (parse_defs _ _ _ _ _ _ _ _ hp).2.1
  obtain ⟨_, l, hl, hperm⟩ := parse_ok _ _ _ _ _ _ _ _ hp
  rw [List.append_nil] at hl
  have hF : Final X [] p := ⟨fun t cs d h => (by cases h), fun x hx m hm => lookup_of_nodup _ (by rw [hl]; exact hperm.nodup_iff.2 hf.names) x hx m hm⟩
  have hcode : CodeAt X.P pre.length g.1.code := by
    intro i hi
    show (pre ++ (g.1.code ++ [.lab (.rtn c)]) ++ post)[pre.length + i]? = _
    rw [List.append_assoc, List.getElem?_append_right (by omega), Nat.add_sub_cancel_left, List.append_assoc, List.getElem?_append_left hi]
  have ha := at_of (X := X) p.labels (fun _ => rfl) f [] [] _ n p n' (c + 1) pre.length hp hr (fun e he => ⟨hf.wf e he, hf.vars e he, fun h => hf.seq h e he⟩) hf.cases hcode
    (Nat.le_trans (Nat.le_max_left _ _) hK) (fun t cs d h => by cases h) hF
  refine ⟨lookupLabel p.labels, pre.length + g.1.code.length, ?_, ?_, ?_, ha⟩
  · refine unique_of_nodup _ ?_
    have := compileBody_nodup hs opt E.Γ E.loc E.stk cc rty hcc n' hd c
    rw [hB] at this
    simp only [labs, List.filterMap_append] at this hpre hpost ⊢
    rw [hpre, hpost]
    simpa using this
  · rw [List.append_assoc, List.getElem?_append_right (by omega), Nat.add_sub_cancel_left, List.append_assoc, List.getElem?_append_right (Nat.le_refl _), Nat.sub_self]; rfl
  · simp; omega

end Slimcc
