import Verif.Props.C30
/-!
C34: conditions branch on the truth value.

`compileCond j l e` (Model/Compile) is the code generated for the condition of `if`, `while`, `for`
and `do`: it must jump to `l` exactly when the truth value of `e` is `j`. A sub-condition that C does
not evaluate is not executed: its effects on the variables would show in the store.
-/
set_option autoImplicit false
namespace Slimcc.Props
open Slimcc Slimcc.Spec Slimcc.Spec.CTy Slimcc.Ty Slimcc.X86 Slimcc.Gen

section
variable (hs : HostShift) (opt : Bool) (E : Env)

theorem C34_cond (P : List Line) (j : Bool) (l : Label) (e : Expr) (σ σ' : Store) (v : Int) (s : St) (pc tgt c : Nat)
    (hE : E.Ok) (hP : UniqueLabels P) (hw : e.Wf) (hx : ∀ x ∈ e.vars, E.dom x) (hq : opt = true → e.Sequenced)
    (hσ : StoreOk E.Γ σ) (hbp : s.r .bp = E.bp) (hm : Rel E σ s.m) (hv : ceval E.Γ e σ = .ok (v, σ'))
    (hK : (compileCond hs opt E.Γ E.loc E.stk j l e c).1.st ≤ E.K)
    (hc : CodeAt P pc (compileCond hs opt E.Γ E.loc E.stk j l e c).1.code) (ht : P[tgt]? = some (.lab l)) :
    ∃ s', Runs E.sym P (pc, s)
        (if (v ≠ 0) = (j = true) then tgt else pc + (compileCond hs opt E.Γ E.loc E.stk j l e c).1.code.length, s') ∧
      Rel E σ' s'.m ∧ s'.r .bp = E.bp ∧ ∀ a, E.Outside E.K a → s'.m a = s.m a := by
  obtain ⟨s', r, f, q⟩ := compileCond_ok hE hP hs j l e σ σ' s v c ⟨hw, hx, hq, hσ, hbp, hm⟩ hv hK pc tgt hc (find_of_at _ hP _ _ ht)
  refine ⟨s', ?_, q, f.bp.trans hbp, fun a ha => f.mem a ha.1 fun k hk => ha.2 k (by omega)⟩
  rw [show (if (v ≠ 0) = (j = true) then tgt else pc + (compileCond hs opt E.Γ E.loc E.stk j l e c).1.code.length) =
    (if (j == decide (v ≠ 0)) = true then tgt else pc + (compileCond hs opt E.Γ E.loc E.stk j l e c).1.code.length) from ?_]
  · exact r
  · by_cases h : v = 0 <;> cases j <;> simp [h]

end

/-! A case meeting the hypotheses: `!(y > 100 && x++ < 0) || z`, in the environment of C30. The
program is the code of the condition followed by the label. -/

def exCond : Expr := .lor (.lnot (.land (.cmp .gt (.var 1) (.num .int 100)) (.cmp .lt (.incr false true 0) (.num .int 0)))) (.cmp .eq (.var 2) (.num .int 7))
def exCondCode : List Line := (compileCond exShift true exΓ exEnv.loc 16 false (.name 1) exCond 0).1.code

example : ceval exΓ exCond exStore = .ok (0, exStore.set 0 (-4)) := by rfl

example : ∃ s', Runs exEnv.sym (exCondCode ++ [.ins (.mov 4 (.imm 1) (.reg .cx)), .lab (.name 1)]) (0, exState)
    (exCondCode.length + 1, s') ∧ Rel exEnv (exStore.set 0 (-4)) s'.m := by
  obtain ⟨s', r, q, _⟩ := C34_cond exShift true exEnv (exCondCode ++ [.ins (.mov 4 (.imm 1) (.reg .cx)), .lab (.name 1)]) false (.name 1) exCond
    exStore (exStore.set 0 (-4)) 0 exState 0 (exCondCode.length + 1) 0 exEnv_ok
    (unique_of_nodup _ (by decide)) ⟨⟨⟨trivial, by decide⟩, trivial, by decide⟩, trivial, by decide⟩
    (by intro x hx; simp [exCond, Expr.vars] at hx; show x < 3; omega)
    (fun _ => ⟨⟨⟨trivial, trivial, by simp [Expr.vars, Expr.assigned]⟩, ⟨trivial, trivial, by simp [Expr.vars, Expr.assigned]⟩⟩, ⟨trivial, trivial, by simp [Expr.vars, Expr.assigned]⟩⟩)
    exStoreOk rfl exRel (by rfl) (by decide)
    (fun i hi => by
      rw [Nat.zero_add]
      exact List.getElem?_append_left (l₁ := exCondCode) hi)
    (by rw [List.getElem?_append_right (by omega), Nat.add_sub_cancel_left]; rfl)
  exact ⟨s', by simpa using r, q⟩

end Slimcc.Props
