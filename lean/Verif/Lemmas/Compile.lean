import Verif.Lemmas.Labels
import Verif.Model.Compile
import Verif.Spec.Sequenced
/-! Code of source expressions. -/
set_option autoImplicit false
namespace Slimcc
open Slimcc.Spec Slimcc.Spec.CTy Slimcc.Ty Slimcc.X86 Slimcc.Gen

section
variable (hs : HostShift) (opt : Bool) (Γ : Nat → CTy)

def SubOf (n : Node) (vs ws : List Nat) : Prop := (∀ x, x ∈ nvars n → x ∈ vs) ∧ (∀ x, x ∈ nwrites n → x ∈ ws)

theorem condCast_sub (n : Node) :
    (∀ x, x ∈ nvars (condCast hs opt n) → x ∈ nvars n) ∧ (∀ x, x ∈ nwrites (condCast hs opt n) → x ∈ nwrites n) := by
  unfold condCast; split
  · exact ⟨fun _ h => h, fun _ h => h⟩
  · exact newCast_sub hs opt n _

theorem condCast_stat (dom : Nat → Prop) (n : Node) (h : Stat dom opt n) : Stat dom opt (condCast hs opt n) := by
  unfold condCast; split
  · exact h
  · exact newCast_stat hs opt dom n _ h

theorem SubOf.newCast {n : Node} {vs ws : List Nat} (h : SubOf n vs ws) (t : ITy) : SubOf (newCast hs opt n t) vs ws :=
  ⟨fun x hx => h.1 x ((newCast_sub hs opt n t).1 x hx), fun x hx => h.2 x ((newCast_sub hs opt n t).2 x hx)⟩
theorem SubOf.intPromo {n : Node} {vs ws : List Nat} (h : SubOf n vs ws) : SubOf (intPromo hs opt n) vs ws :=
  ⟨fun x hx => h.1 x ((intPromo_sub hs opt n).1 x hx), fun x hx => h.2 x ((intPromo_sub hs opt n).2 x hx)⟩
theorem SubOf.condCast {n : Node} {vs ws : List Nat} (h : SubOf n vs ws) : SubOf (condCast hs opt n) vs ws :=
  ⟨fun x hx => h.1 x ((condCast_sub hs opt n).1 x hx), fun x hx => h.2 x ((condCast_sub hs opt n).2 x hx)⟩
theorem SubOf.mkArith {a b : Node} {va wa vb wb : List Nat} (ha : SubOf a va wa) (hb : SubOf b vb wb) (k : AKind) :
    SubOf (mkArith hs opt k a b) (va ++ vb) (wa ++ wb) :=
  ⟨fun x hx => List.mem_append.2 (((mkArith_sub hs opt k a b).1 x hx).imp (ha.1 x) (hb.1 x)),
   fun x hx => List.mem_append.2 (((mkArith_sub hs opt k a b).2 x hx).imp (ha.2 x) (hb.2 x))⟩

theorem mem_append_imp {x : Nat} {a b c d : List Nat} (h : x ∈ a ++ b) (h1 : x ∈ a → x ∈ c) (h2 : x ∈ b → x ∈ d) : x ∈ c ++ d :=
  List.mem_append.2 ((List.mem_append.1 h).imp h1 h2)

theorem SubOf.pair {a b : Node} {va wa vb wb : List Nat} (ha : SubOf a va wa) (hb : SubOf b vb wb) :
    (∀ x, x ∈ nvars a ++ nvars b → x ∈ va ++ vb) ∧ (∀ x, x ∈ nwrites a ++ nwrites b → x ∈ wa ++ wb) :=
  ⟨fun x h => mem_append_imp h (ha.1 x) (hb.1 x), fun x h => mem_append_imp h (ha.2 x) (hb.2 x)⟩

theorem SubOf.usual {a b : Node} {va wa vb wb : List Nat} (ha : SubOf a va wa) (hb : SubOf b vb wb) :
    SubOf (usualConv hs opt a b).1 va wa ∧ SubOf (usualConv hs opt a b).2 vb wb := by
  have u := usual_sub hs opt a b
  exact ⟨⟨fun x hx => ha.1 x (u.1.1 x hx), fun x hx => ha.2 x (u.1.2 x hx)⟩, ⟨fun x hx => hb.1 x (u.2.1 x hx), fun x hx => hb.2 x (u.2.2 x hx)⟩⟩

theorem build_sub : ∀ e : Expr, SubOf (build hs opt Γ e) e.vars e.assigned
  | .num _ _ => ⟨fun _ h => h, fun _ h => h⟩
  | .var _ => ⟨fun _ h => h, fun _ h => h⟩
  | .cast _ e => (build_sub e).newCast hs opt _
  | .un _ e => (build_sub e).intPromo hs opt
  | .lnot e => (build_sub e).condCast hs opt
  | .bin _ a b => (build_sub a).mkArith hs opt (build_sub b) _
  | .cmp _ a b => by
    have u := (build_sub a).usual hs opt (build_sub b)
    exact u.1.pair u.2
  | .land a b => ((build_sub a).condCast hs opt).pair ((build_sub b).condCast hs opt)
  | .lor a b => ((build_sub a).condCast hs opt).pair ((build_sub b).condCast hs opt)
  | .cond c a b => by
    have u := (build_sub a).usual hs opt (build_sub b)
    have p := u.1.pair u.2
    have hc := (build_sub c).condCast hs opt
    exact ⟨fun x h => mem_append_imp h (hc.1 x) (p.1 x), fun x h => mem_append_imp h (hc.2 x) (p.2 x)⟩
  | .comma a b => (build_sub a).pair (build_sub b)
  | .assign x e => by
    have h := (build_sub e).newCast hs opt (ity (Γ x))
    exact ⟨fun y hy => by rcases List.mem_cons.1 hy with h1 | h1; exact List.mem_cons.2 (Or.inl h1); exact List.mem_cons.2 (Or.inr (h.1 y h1)),
      fun y hy => by rcases List.mem_cons.1 hy with h1 | h1; exact List.mem_cons.2 (Or.inl h1); exact List.mem_cons.2 (Or.inr (h.2 y h1))⟩
  | .opAssign _ x e => by
    have h := build_sub e
    exact ⟨fun y hy => by rcases List.mem_cons.1 hy with h1 | h1; exact List.mem_cons.2 (Or.inl h1); exact List.mem_cons.2 (Or.inr (h.1 y h1)),
      fun y hy => by rcases List.mem_cons.1 hy with h1 | h1; exact List.mem_cons.2 (Or.inl h1); exact List.mem_cons.2 (Or.inr (h.2 y h1))⟩
  | .incr true _ _ => ⟨fun _ h => h, fun _ h => h⟩
  | .incr false up x => by
    simp only [build, newIncDec]
    split
    · have h1 : ∀ v w : BitVec 64, SubOf (Slimcc.Ty.mkArith hs opt (.ar .add) (.arithAssign (.ar .add) (ity (Γ x)) x (.num ty_int v)) (.num ty_int w)) ([x] ++ []) ([x] ++ []) :=
        fun v w => SubOf.mkArith hs opt ⟨fun _ h => h, fun _ h => h⟩ ⟨fun _ h => h, fun _ h => h⟩ _
      exact (h1 _ _).newCast hs opt _
    · exact ⟨fun _ h => h, fun _ h => h⟩

theorem mem_left {dom : Nat → Prop} {a b : List Nat} (h : ∀ x ∈ a ++ b, dom x) : ∀ x ∈ a, dom x := fun x hx => h x (List.mem_append.2 (Or.inl hx))
theorem mem_right {dom : Nat → Prop} {a b : List Nat} (h : ∀ x ∈ a ++ b, dom x) : ∀ x ∈ b, dom x := fun x hx => h x (List.mem_append.2 (Or.inr hx))

theorem build_stat (dom : Nat → Prop) : ∀ e : Expr, (∀ x ∈ e.vars, dom x) → (opt = true → e.Sequenced) → Stat dom opt (build hs opt Γ e)
  | .num _ _, _, _ => trivial
  | .var x, h, _ => h x (List.mem_singleton.2 rfl)
  | .cast _ e, h, q => newCast_stat hs opt dom _ _ (build_stat dom e h q)
  | .un _ e, h, q => ⟨intPromo_stat hs opt dom _ (build_stat dom e h q), noNull_intPromo hs opt _ (noNull_build hs opt e)⟩
  | .lnot e, h, q => ⟨condCast_stat hs opt dom _ (build_stat dom e h q), noNull_condCast hs opt _ (noNull_build hs opt e)⟩
  | .bin _ a b, h, q => mkArith_stat hs opt dom _ _ _ (build_stat dom a (mem_left h) fun o => (q o).1) (build_stat dom b (mem_right h) fun o => (q o).2.1)
      (noNull_build hs opt b) fun o x hx hx' => (q o).2.2 x ((build_sub hs opt Γ a).1 x hx) ((build_sub hs opt Γ b).2 x hx')
  | .cmp _ a b, h, q => by
    have s := usual_stat hs opt dom _ _ (build_stat dom a (mem_left h) fun o => (q o).1) (build_stat dom b (mem_right h) fun o => (q o).2.1)
    have u := (build_sub hs opt Γ a).usual hs opt (build_sub hs opt Γ b)
    exact ⟨s.1, s.2, (noNull_usual hs opt _ _ (noNull_build hs opt a) (noNull_build hs opt b)).2, fun o x hx hx' => (q o).2.2 x (u.1.1 x hx) (u.2.2 x hx')⟩
  | .land a b, h, q => ⟨condCast_stat hs opt dom _ (build_stat dom a (mem_left h) fun o => (q o).1), condCast_stat hs opt dom _ (build_stat dom b (mem_right h) fun o => (q o).2),
      noNull_condCast hs opt _ (noNull_build hs opt a), noNull_condCast hs opt _ (noNull_build hs opt b)⟩
  | .lor a b, h, q => ⟨condCast_stat hs opt dom _ (build_stat dom a (mem_left h) fun o => (q o).1), condCast_stat hs opt dom _ (build_stat dom b (mem_right h) fun o => (q o).2),
      noNull_condCast hs opt _ (noNull_build hs opt a), noNull_condCast hs opt _ (noNull_build hs opt b)⟩
  | .cond c a b, h, q => by
    have s := usual_stat hs opt dom _ _ (build_stat dom a (mem_left (mem_right h)) fun o => (q o).2.1) (build_stat dom b (mem_right (mem_right h)) fun o => (q o).2.2)
    have n := noNull_usual hs opt _ _ (noNull_build hs opt (Γ := Γ) a) (noNull_build hs opt (Γ := Γ) b)
    exact ⟨condCast_stat hs opt dom _ (build_stat dom c (mem_left h) fun o => (q o).1), s.1, s.2, noNull_condCast hs opt _ (noNull_build hs opt c), n.1, n.2⟩
  | .comma a b, h, q => ⟨build_stat dom a (mem_left h) fun o => (q o).1, build_stat dom b (mem_right h) fun o => (q o).2, noNull_build hs opt a, noNull_build hs opt b⟩
  | .assign x e, h, q => ⟨h x (List.mem_cons.2 (Or.inl rfl)), newCast_stat hs opt dom _ _ (build_stat dom e (fun y hy => h y (List.mem_cons.2 (Or.inr hy))) q),
      noNull_newCast hs opt _ _ (noNull_build hs opt e)⟩
  | .opAssign _ x e, h, q => ⟨h x (List.mem_cons.2 (Or.inl rfl)), build_stat dom e (fun y hy => h y (List.mem_cons.2 (Or.inr hy))) fun o => (q o).1,
      noNull_build hs opt e, fun o hx => (q o).2 ((build_sub hs opt Γ e).2 x hx)⟩
  | .incr true _ x, h, _ => ⟨h x (List.mem_singleton.2 rfl), trivial, trivial, fun _ hx => by cases hx⟩
  | .incr false up x, h, _ => by
    have hx : dom x := h x (List.mem_singleton.2 rfl)
    simp only [build, newIncDec]
    split
    · exact newCast_stat hs opt dom _ _ (mkArith_stat hs opt dom (.ar .add) _ _ ⟨hx, trivial, trivial, fun _ hx => by cases hx⟩ trivial trivial fun _ _ _ hx => by cases hx)
    · exact ⟨hx, trivial, trivial, fun _ hx => by cases hx⟩

end

section
variable {E : Env} {P : List Line} {opt : Bool}

theorem reps_inReg (t : CTy) (v : Int) (x : Word) : Reps (ity t) v x ↔ InReg t v x := by
  cases t <;> refine and_congr Iff.rfl ⟨fun h e => ?_, fun h e => ?_⟩ <;> first | exact h rfl | cases e

/-- The requirements on an expression and a state. -/
structure Ready (E : Env) (opt : Bool) (e : Expr) (σ : Store) (s : St) : Prop where
  wf : e.Wf
  vars : ∀ x ∈ e.vars, E.dom x
  seq : opt = true → e.Sequenced
  sok : StoreOk E.Γ σ
  bp : s.r .bp = E.bp
  rel : Rel E σ s.m

theorem Ready.impl {e : Expr} {σ : Store} {s : St} (h : Ready E opt e σ s) (hs : HostShift) :
    Impl E.Γ ty_int 0 (build hs opt E.Γ e) (ity (e.ty E.Γ)) (ceval E.Γ e) := build_impl hs opt (by decide) e h.wf

theorem Ready.pre {e : Expr} {σ : Store} {s : St} (h : Ready E opt e σ s) (hs : HostShift) : Pre E opt ty_int 0 (build hs opt E.Γ e) σ s :=
  ⟨(h.impl hs).wf, by decide, build_stat hs opt E.Γ E.dom e h.vars h.seq, h.sok, h.bp, h.rel, Or.inl (noNull_build hs opt e)⟩

theorem refines_ok {α : Type} {a b : Res α} {v : α} (h : Refines a b) (ha : a = .ok v) : b = .ok v := by
  rcases h with h | h
  · rw [ha] at h; cases h
  · rw [← h, ha]

/-- Code for the value of an expression. -/
theorem compileExpr_ok (hok : E.Ok) (hu : UniqueLabels P) (hs : HostShift) (e : Expr) (σ σ' : Store) (s : St) (v : Int) (c : Nat)
    (h : Ready E opt e σ s) (hv : ceval E.Γ e σ = .ok (v, σ')) (hK : (compileExpr hs opt E.Γ E.loc E.stk e c).1.st ≤ E.K) :
    Does E P (compileExpr hs opt E.Γ E.loc E.stk e c).1 s fun s' => Rel E σ' s'.m ∧ Reps (ity (e.ty E.Γ)) v (s'.r .ax) := by
  have g := gen_ok hok hu hs (opt := opt) _ .expr (build hs opt E.Γ e) (Nat.le_refl _) ⟨ty_int, (h.impl hs).wf⟩
  refine (g ty_int 0 σ s v σ' c (h.pre hs) (refines_ok ((h.impl hs).ref σ h.sok) hv) hK).imp fun s' _ q => ⟨q.1, ?_⟩
  rw [← (h.impl hs).ty]
  exact q.2.1

/-- Code for the effects of an expression. -/
theorem compileVoid_ok (hok : E.Ok) (hu : UniqueLabels P) (hs : HostShift) (e : Expr) (σ σ' : Store) (s : St) (v : Int) (c : Nat)
    (h : Ready E opt e σ s) (hv : ceval E.Γ e σ = .ok (v, σ')) (hK : (compileVoid hs opt E.Γ E.loc E.stk e c).1.st ≤ E.K) :
    Does E P (compileVoid hs opt E.Γ E.loc E.stk e c).1 s fun s' => Rel E σ' s'.m := by
  have g := gen_ok hok hu hs (opt := opt) _ .void (build hs opt E.Γ e) (Nat.le_refl _) ⟨ty_int, (h.impl hs).wf⟩
  exact g ty_int 0 σ s v σ' c (h.pre hs) (noNull_build hs opt e) (refines_ok ((h.impl hs).ref σ h.sok) hv) hK

/-- Code for a condition. -/
theorem compileCond_ok (hok : E.Ok) (hu : UniqueLabels P) (hs : HostShift) (j : Bool) (l : Label) (e : Expr) (σ σ' : Store) (s : St) (v : Int) (c : Nat)
    (h : Ready E opt e σ s) (hv : ceval E.Γ e σ = .ok (v, σ')) (hK : (compileCond hs opt E.Γ E.loc E.stk j l e c).1.st ≤ E.K) :
    DoesJ E P (compileCond hs opt E.Γ E.loc E.stk j l e c).1 l s (j == decide (v ≠ 0)) fun s' => Rel E σ' s'.m := by
  obtain ⟨t', f', i, hb, hz⟩ := condCast_impl hs opt (acc := 0) (nt := ty_int) (by decide) (h.impl hs)
  have hn := noNull_condCast hs opt _ (noNull_build hs opt (Γ := E.Γ) e)
  have hp := h.pre hs
  have hp' : Pre E opt ty_int 0 (condCast hs opt (build hs opt E.Γ e)) σ s :=
    ⟨i.wf, hp.accr, condCast_stat hs opt E.dom _ hp.stat, hp.sok, hp.bp, hp.rel, Or.inl hn⟩
  have g := gen_ok hok hu hs (opt := opt) _ (.cond j l) _ (Nat.le_refl _) ⟨ty_int, i.wf⟩
  have key : ∃ w, neval 0 (condCast hs opt (build hs opt E.Γ e)) σ = .ok (w, σ') ∧ (w ≠ 0 ↔ v ≠ 0) := by
    rcases hz σ with hz | hz
    · exact ⟨v, refines_ok (i.ref σ h.sok) (by rw [hz, hv]), Iff.rfl⟩
    · refine ⟨conv .bool v, refines_ok (i.ref σ h.sok) (by rw [hz, convRes, hv]; rfl), ?_⟩
      rw [conv_bool]
      split
      · rename_i e; simp [e]
      · rename_i e; simp [e]
  obtain ⟨w, hw, hwv⟩ := key
  have := g ty_int 0 σ s w σ' c hp' hn hb hw hK
  rwa [show decide (w ≠ 0) = decide (v ≠ 0) from decide_eq_decide.2 hwv] at this

end
end Slimcc
