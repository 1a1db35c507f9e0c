import Verif.Lemmas.FpAssign
import Verif.Props.C63
/-! C82: assignments of the values of expressions with floating operands to variables. -/
set_option autoImplicit false
namespace Slimcc.Props
open Slimcc.Spec Slimcc.Spec.CTy Slimcc.Spec.FP Slimcc.X86 Slimcc.Ty Slimcc.Gen Slimcc.FP

/-- `x = e` stores the value of `e` in `x`, has that value, and leaves every other variable and byte as it was. -/
theorem C82_assign (E : FEnv) (hE : E.Ok) (σ : Nat → Val) (x : Nat) (e : FE) (v : Val) (n : Nat) (s : FS)
    (h : e.Ok E.Γ) (ht : e.ty E.Γ = E.Γ x) (hv : Eval E.Γ σ e v) (hc : SoundCasts E.Γ σ e) (ho : Kept E.Γ σ e ∧ Comparable E.Γ σ e)
    (hx : E.Alone x) (hs : Within E σ n s) (hn : n ≤ 5) (hK : (genAssign E.Γ E.loc E.stk x e).st ≤ E.K) :
    ∃ s', frun E.sym (genAssign E.Γ E.loc E.stk x e).code none s = some s' ∧ InPlace (E.Γ x) v n s' ∧
      Within E (E.set σ x v) (max n 1) s' ∧
      LeavesBut E x (genAssign E.Γ E.loc E.stk x e).st (genAssign E.Γ E.loc E.stk x e).fp s s' := by
  have hσ : ∀ x, HasTy (E.Γ x) (σ x) := fun x => at_has (hs.mem x)
  obtain ⟨s1, r1, p1, l1⟩ := C63_expression true E hE σ e v n s h hv hc (fun _ => ho) hs hn hK
  have hty : HasTy (E.Γ x) v := ht ▸ eval_has hσ hv h
  have w1 := within_leaves (n' := s1.st.length) hE hK hs l1 (Nat.le_refl _)
  have hm : ea E.sym s1.g (E.loc x) = E.addr x := fea_loc hE x s1 w1.bp
  obtain ⟨s2, r2, q⟩ := store3_run (E := E) (E.Γ x) v (E.loc x) (E.addr x) n s1 hty w1.cw hm (ht ▸ p1)
  obtain ⟨w2, l2⟩ := set_within hE hx hK hs l1 q
  exact ⟨s2, by show frun E.sym (_ ++ _) none s = _; exact (runs_append ⟨s1, r1, rfl⟩ fun t ht => by subst ht; exact ⟨s2, r2, rfl⟩).elim fun t ht => by rw [ht.1, ht.2], q.place, w2, l2⟩

/-- The statement `x = e;` does the same, whatever `e` is but a variable of type long double. -/
theorem C82_statement (E : FEnv) (hE : E.Ok) (σ : Nat → Val) (x : Nat) (e : FE) (v : Val) (n : Nat) (s : FS)
    (h : e.Ok E.Γ) (ht : e.ty E.Γ = E.Γ x) (hv : Eval E.Γ σ e v) (hc : SoundCasts E.Γ σ e) (ho : Kept E.Γ σ e ∧ Comparable E.Γ σ e)
    (hl : E.Γ x = .flo .ldouble → ∀ y, e ≠ .var y)
    (hx : E.Alone x) (hs : Within E σ n s) (hn : n ≤ 5) (hK : (genVoid E.Γ E.loc E.stk x e).st ≤ E.K) :
    ∃ s', frun E.sym (genVoid E.Γ E.loc E.stk x e).code none s = some s' ∧ Within E (E.set σ x v) (max n 1) s' ∧
      LeavesBut E x (genVoid E.Γ E.loc E.stk x e).st (genVoid E.Γ E.loc E.stk x e).fp s s' := by
  have hσ : ∀ x, HasTy (E.Γ x) (σ x) := fun x => at_has (hs.mem x)
  have hty : HasTy (E.Γ x) v := ht ▸ eval_has hσ hv h
  have hm : ∀ s1 : St, (∀ r, r ≠ .dx → s1.r r = s.g.r r) → ea E.sym s1 (E.loc x) = E.addr x := fun s1 h1 =>
    fea_loc hE x { s with g := s1 } ((h1 .bp (by decide)).trans hs.bp)
  have other : (∀ t z, E.Γ x = .int t → foldI E.Γ e ≠ some z) → genVoid E.Γ E.loc E.stk x e = match (generalizing := false) e with
      | .var y => plain (copyVar (E.Γ x).size (E.loc y) (E.loc x))
      | _ => genAssign E.Γ E.loc E.stk x e := by
    intro hno
    unfold genVoid
    split
    · rename_i t z h1 h2; exact absurd h2 (hno t z h1)
    · rfl
  by_cases hi : ∃ t z, E.Γ x = .int t ∧ foldI E.Γ e = some z
  · obtain ⟨t, z, h1, h2⟩ := hi
    have hg : genVoid E.Γ E.loc E.stk x e = plain (gps (immTmpl (fun o => .mov t.bytes o (.mem (E.loc x))) (limitImm (BitVec.ofInt 64 z) t.bytes))) := by
      unfold genVoid; rw [h1, h2]
    rw [h1] at hty
    cases v with
    | f y => exact hty.elim
    | i w =>
      obtain rfl := (fold_same hσ e h ho.1).2 z w h2 hv
      obtain ⟨s2, r2, q⟩ := const_run (E := E) t z (E.loc x) (E.addr x) s hty hm
      rw [hg]
      exact ⟨s2, r2, moved_within hx hs (h1 ▸ q) _ _⟩
  · have ho' := other fun t z a b => hi ⟨t, z, a, b⟩
    by_cases hvar : ∃ y, e = .var y
    · obtain ⟨y, rfl⟩ := hvar
      cases hv
      rw [ho']
      have ht : E.Γ y = E.Γ x := ht
      obtain ⟨s2, r2, q⟩ := copyVar_run (E := E) (E.Γ x) (σ y) (E.loc y) (E.loc x) (E.addr x) (E.addr y) s (fun hc => hl hc y rfl) (fea_loc hE y s hs.bp) hm (ht ▸ hs.mem y)
      exact ⟨s2, r2, moved_within hx hs q _ _⟩
    · have hg : genVoid E.Γ E.loc E.stk x e = genAssign E.Γ E.loc E.stk x e := by
        rw [ho']
        cases e with
        | var y => exact absurd ⟨y, rfl⟩ hvar
        | _ => rfl
      rw [hg] at hK ⊢
      obtain ⟨s', r1, _, r2⟩ := C82_assign E hE σ x e v n s h ht hv hc ho hx hs hn hK
      exact ⟨s', r1, r2⟩

/-- The conditions of `C82_statement` for each assignment of a list, in the values it meets. -/
inductive Assignable (E : FEnv) : (Nat → Val) → List (Nat × FE) → Prop
  | done (σ : Nat → Val) : Assignable E σ []
  | next {σ : Nat → Val} {x : Nat} {e : FE} {r : List (Nat × FE)} : e.Ok E.Γ → e.ty E.Γ = E.Γ x → SoundCasts E.Γ σ e → Kept E.Γ σ e → Comparable E.Γ σ e →
      E.Alone x → (E.Γ x = .flo .ldouble → ∀ y, e ≠ .var y) → (genVoid E.Γ E.loc E.stk x e).st ≤ E.K →
      (∀ v, Eval E.Γ σ e v → Assignable E (E.set σ x v) r) → Assignable E σ ((x, e) :: r)

/-- Any number of assignments, one after the other, leave in the variables what C says. -/
theorem C82_sequence (E : FEnv) (hE : E.Ok) (l : List (Nat × FE)) (σ σ' : Nat → Val) (s : FS) (h : Assignable E σ l) (hp : Performs E σ l σ') (hs : Within E σ 1 s) :
    ∃ s', frun E.sym (genAssigns E.Γ E.loc E.stk l) none s = some s' ∧ Within E σ' 1 s' := by
  induction l generalizing σ s with
  | nil => cases hp; exact ⟨s, rfl, hs⟩
  | cons p r ih =>
    cases hp with
    | @next _ _ x e v _ hv hr =>
      cases h with
      | next h1 h2 h3 h4 h5 h6 h7 h8 h9 =>
        obtain ⟨s1, r1, w1, _⟩ := C82_statement E hE σ x e v 1 s h1 h2 hv h3 ⟨h4, h5⟩ h7 h6 hs (by omega) h8
        obtain ⟨s2, r2, w2⟩ := ih _ s1 (h9 v hv) hr w1
        refine ⟨s2, ?_, w2⟩
        show frun E.sym (_ ++ _) none s = _
        exact (runs_append ⟨s1, r1, rfl⟩ fun t ht => by subst ht; exact ⟨s2, r2, rfl⟩).elim fun t ht => by rw [ht.1, ht.2]

/-! Concrete cases: with a and b 1.5 and 2.5, `a = a * b - a / b`, twice. -/

theorem fxAlone : fxEnv.Alone 0 := by
  intro y
  by_cases hy : y = 0
  · subst hy; exact .inl ⟨rfl, rfl⟩
  · refine .inr fun c => ?_
    rw [fxEnv_addr, fxEnv_addr, if_pos rfl, if_neg hy]
    show ¬ (InBlk _ 8 c ∧ InBlk _ 8 c)
    unfold InBlk
    bv_omega

theorem fxAssignable (σ : Nat → Val) (r : List (Nat × FE)) (h : ∀ v, Assignable fxEnv (fxEnv.set σ 0 v) r) : Assignable fxEnv σ ((0, fxExpr) :: r) :=
  .next ⟨⟨trivial, trivial, .double, rfl, rfl⟩, ⟨trivial, trivial, .double, rfl, rfl⟩, .double, rfl, rfl⟩ rfl ⟨⟨trivial, trivial⟩, ⟨trivial, trivial⟩⟩
    ⟨⟨trivial, trivial, fun h => absurd h (by decide)⟩, ⟨trivial, trivial, fun h => absurd h (by decide)⟩, fun h => absurd h (by decide)⟩
    ⟨⟨trivial, trivial⟩, ⟨trivial, trivial⟩⟩ fxAlone (fun _ _ => FE.noConfusion) (by decide) fun v _ => h v

/-- `a` after the first assignment. -/
example : ∃ s', frun fxEnv.sym (genAssigns fxEnv.Γ fxEnv.loc fxEnv.stk [(0, fxExpr)]) none (fxState 0x3f 0xf8 0x40 0x04) = some s' ∧
    At (.flo .double) (.f fxResult) 0x7fffffffdff8#64 s'.g.m ∧ At (.flo .double) (.f (.fin false (5 * 2 ^ 50) (-51))) 0x7fffffffdff0#64 s'.g.m := by
  have w : Within fxEnv fxStore 1 (fxState 0x3f 0xf8 0x40 0x04) := { fxWithin with st := by decide }
  obtain ⟨s', h1, h2⟩ := C82_sequence fxEnv fxEnv_ok [(0, fxExpr)] fxStore _ _ (fxAssignable _ _ fun _ => .done _) (.next fxEval (.done _)) w
  exact ⟨s', h1, h2.mem 0, h2.mem 1⟩

/-- Twice: the second reads what the first stored. -/
example : ∃ s' σ', frun fxEnv.sym (genAssigns fxEnv.Γ fxEnv.loc fxEnv.stk [(0, fxExpr), (0, fxExpr)]) none (fxState 0x3f 0xf8 0x40 0x04) = some s' ∧
    Within fxEnv σ' 1 s' ∧ σ' 0 = .f (sub f64 (mul f64 fxResult (.fin false (5 * 2 ^ 50) (-51))) (div f64 fxResult (.fin false (5 * 2 ^ 50) (-51)))) := by
  have w : Within fxEnv fxStore 1 (fxState 0x3f 0xf8 0x40 0x04) := { fxWithin with st := by decide }
  have e2 : Eval fxEnv.Γ (fxEnv.set fxStore 0 (.f fxResult)) fxExpr
      (.f (sub f64 (mul f64 fxResult (.fin false (5 * 2 ^ 50) (-51))) (div f64 fxResult (.fin false (5 * 2 ^ 50) (-51))))) := by
    have e0 : Eval fxEnv.Γ (fxEnv.set fxStore 0 (.f fxResult)) (.var 0) (.f fxResult) := .var 0
    have e1 : Eval fxEnv.Γ (fxEnv.set fxStore 0 (.f fxResult)) (.var 1) (.f (.fin false (5 * 2 ^ 50) (-51))) := .var 1
    exact .bin (f := .double) (.bin (f := .double) e0 e1 rfl (fx_mul _ _)) (.bin (f := .double) e0 e1 rfl (fx_div _ _)) rfl (fx_sub _ _)
  obtain ⟨s', h1, h2⟩ := C82_sequence fxEnv fxEnv_ok [(0, fxExpr), (0, fxExpr)] fxStore _ _ (fxAssignable _ _ fun _ => fxAssignable _ _ fun _ => .done _)
    (.next fxEval (.next e2 (.done _))) w
  exact ⟨s', _, h1, h2, rfl⟩

/-- `a = b;`. -/
example : ∃ s' σ', frun fxEnv.sym (genAssigns fxEnv.Γ fxEnv.loc fxEnv.stk [(0, .var 1)]) none (fxState 0x3f 0xf8 0x40 0x04) = some s' ∧
    Within fxEnv σ' 1 s' ∧ σ' 0 = .f (.fin false (5 * 2 ^ 50) (-51)) := by
  have w : Within fxEnv fxStore 1 (fxState 0x3f 0xf8 0x40 0x04) := { fxWithin with st := by decide }
  obtain ⟨s', h1, h2⟩ := C82_sequence fxEnv fxEnv_ok [(0, .var 1)] fxStore _ _
    (.next trivial rfl trivial trivial trivial fxAlone (fun h => absurd h (by decide)) (by decide) fun _ _ => .done _) (.next (.var 1) (.done _)) w
  exact ⟨s', _, h1, h2, rfl⟩

/-- The same frame with two variables of type long. -/
def fyEnv : FEnv := { fxEnv with Γ := fun _ => .int .long }
theorem fyEnv_ok : fyEnv.Ok := ⟨fxEnv_ok.1, fxEnv_ok.2, fxEnv_ok.3, fxEnv_ok.4, fxEnv_ok.5⟩

/-- `a = 0x123456789;`, through %rdx; `b` keeps its value. -/
example : ∃ s', frun fyEnv.sym (genAssigns fyEnv.Γ fyEnv.loc fyEnv.stk [(0, .inum .long 0x123456789)]) none (fxState 0 0 0 0) = some s' ∧
    At (.int .long) (.i 0x123456789) 0x7fffffffdff8#64 s'.g.m ∧ At (.int .long) (.i 0) 0x7fffffffdff0#64 s'.g.m := by
  have w : Within fyEnv (fun _ => .i 0) 1 (fxState 0 0 0 0) := by
    refine ⟨rfl, rfl, rfl, by decide, fun x => ⟨by decide, fun i _ => ?_⟩⟩
    show (if _ then (0 : BitVec 8) else if _ then 0 else if _ then 0 else if _ then 0 else 0) = _
    simp
  obtain ⟨s', h1, h2⟩ := C82_sequence fyEnv fyEnv_ok [(0, .inum .long 0x123456789)] (fun _ => .i 0) _ _
    (.next ⟨by decide, by decide⟩ rfl trivial trivial trivial (fun y => (fxAlone y).imp (fun h => ⟨h.1, rfl⟩) fun h => h) (fun h => absurd h (by decide)) (by decide) fun _ _ => .done _) (.next (.inum _ _) (.done _)) w
  exact ⟨s', h1, h2.mem 0, h2.mem 1⟩

end Slimcc.Props
