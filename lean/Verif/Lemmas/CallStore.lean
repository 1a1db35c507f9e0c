import Verif.Lemmas.CEvalFrame
import Verif.Lemmas.Compile
import Verif.Model.Call
/-! Unsequenced arguments: in whatever order they are evaluated, each has its value. -/
set_option autoImplicit false
namespace Slimcc
open Slimcc.Spec Slimcc.Spec.CTy Slimcc.Ty Slimcc.X86 Slimcc.Gen

section
variable {Γ : Nat → CTy}

/-- Only what an expression assigns changes. -/
theorem ceval_unassigned : ∀ (e : Expr) (σ σ' : Store) (v : Int), ceval Γ e σ = .ok (v, σ') → ∀ x, x ∉ e.assigned → σ' x = σ x
  | .num t w, σ, σ', v, h => by
    simp only [ceval, Res.ok.injEq, Prod.mk.injEq] at h
    obtain ⟨rfl, rfl⟩ := h
    exact fun _ _ => rfl
  | .var x, σ, σ', v, h => by
    simp only [ceval, Res.ok.injEq, Prod.mk.injEq] at h
    obtain ⟨rfl, rfl⟩ := h
    exact fun _ _ => rfl
  | .cast t e, σ, σ', v, h => by
    simp only [ceval, Res.bind_do, bind_ok_iff] at h
    obtain ⟨⟨w, σ1⟩, h1, h⟩ := h
    simp only [Res.ok.injEq, Prod.mk.injEq] at h
    obtain ⟨rfl, rfl⟩ := h
    exact ceval_unassigned e σ σ1 w h1
  | .un op e, σ, σ', v, h => by
    simp only [ceval, Res.bind_do, bind_ok_iff] at h
    obtain ⟨⟨w, σ1⟩, h1, h⟩ := h
    simp only [Res.ok.injEq, Prod.mk.injEq] at h
    obtain ⟨rfl, rfl⟩ := h
    exact ceval_unassigned e σ σ1 w h1
  | .lnot e, σ, σ', v, h => by
    simp only [ceval, Res.bind_do, bind_ok_iff] at h
    obtain ⟨⟨w, σ1⟩, h1, h⟩ := h
    simp only [Res.ok.injEq, Prod.mk.injEq] at h
    obtain ⟨rfl, rfl⟩ := h
    exact ceval_unassigned e σ σ1 w h1
  | .bin op a b, σ, σ', v, h => by
    simp only [ceval, Res.bind_do, bind_ok_iff] at h
    obtain ⟨⟨w, σ1⟩, h1, ⟨u, σ2⟩, h2, r, h3, h⟩ := h
    simp only [Res.ok.injEq, Prod.mk.injEq] at h
    obtain ⟨rfl, rfl⟩ := h
    intro x hx
    rw [ceval_unassigned b σ1 σ2 u h2 x (fun k => hx (List.mem_append.2 (Or.inr k))), ceval_unassigned a σ σ1 w h1 x (fun k => hx (List.mem_append.2 (Or.inl k)))]
  | .cmp op a b, σ, σ', v, h => by
    simp only [ceval, Res.bind_do, bind_ok_iff] at h
    obtain ⟨⟨w, σ1⟩, h1, ⟨u, σ2⟩, h2, h⟩ := h
    simp only [Res.ok.injEq, Prod.mk.injEq] at h
    obtain ⟨rfl, rfl⟩ := h
    intro x hx
    rw [ceval_unassigned b σ1 σ2 u h2 x (fun k => hx (List.mem_append.2 (Or.inr k))), ceval_unassigned a σ σ1 w h1 x (fun k => hx (List.mem_append.2 (Or.inl k)))]
  | .land a b, σ, σ', v, h => by
    simp only [ceval, Res.bind_do, bind_ok_iff] at h
    obtain ⟨⟨w, σ1⟩, h1, h⟩ := h
    intro x hx
    have ka := ceval_unassigned a σ σ1 w h1 x (fun k => hx (List.mem_append.2 (Or.inl k)))
    dsimp only at h
    by_cases hw : w = 0
    · simp only [hw, if_true, Res.ok.injEq, Prod.mk.injEq] at h
      rw [← h.2, ka]
    · simp only [hw, if_false, bind_ok_iff] at h
      obtain ⟨⟨u, σ2⟩, h2, h⟩ := h
      simp only [Res.ok.injEq, Prod.mk.injEq] at h
      rw [← h.2, ceval_unassigned b σ1 σ2 u h2 x (fun k => hx (List.mem_append.2 (Or.inr k))), ka]
  | .lor a b, σ, σ', v, h => by
    simp only [ceval, Res.bind_do, bind_ok_iff] at h
    obtain ⟨⟨w, σ1⟩, h1, h⟩ := h
    intro x hx
    have ka := ceval_unassigned a σ σ1 w h1 x (fun k => hx (List.mem_append.2 (Or.inl k)))
    dsimp only at h
    by_cases hw : w ≠ 0
    · rw [if_pos hw] at h
      simp only [Res.ok.injEq, Prod.mk.injEq] at h
      rw [← h.2, ka]
    · rw [if_neg hw, bind_ok_iff] at h
      obtain ⟨⟨u, σ2⟩, h2, h⟩ := h
      simp only [Res.ok.injEq, Prod.mk.injEq] at h
      rw [← h.2, ceval_unassigned b σ1 σ2 u h2 x (fun k => hx (List.mem_append.2 (Or.inr k))), ka]
  | .cond c a b, σ, σ', v, h => by
    simp only [ceval, Res.bind_do, bind_ok_iff] at h
    obtain ⟨⟨w, σ1⟩, h1, h⟩ := h
    intro x hx
    have ka := ceval_unassigned c σ σ1 w h1 x (fun k => hx (List.mem_append.2 (Or.inl k)))
    dsimp only at h
    by_cases hw : w ≠ 0
    · rw [if_pos hw, bind_ok_iff] at h
      obtain ⟨⟨u, σ2⟩, h2, h⟩ := h
      simp only [Res.ok.injEq, Prod.mk.injEq] at h
      rw [← h.2, ceval_unassigned a σ1 σ2 u h2 x (fun k => hx (List.mem_append.2 (Or.inr (List.mem_append.2 (Or.inl k))))), ka]
    · rw [if_neg hw, bind_ok_iff] at h
      obtain ⟨⟨u, σ2⟩, h2, h⟩ := h
      simp only [Res.ok.injEq, Prod.mk.injEq] at h
      rw [← h.2, ceval_unassigned b σ1 σ2 u h2 x (fun k => hx (List.mem_append.2 (Or.inr (List.mem_append.2 (Or.inr k))))), ka]
  | .comma a b, σ, σ', v, h => by
    simp only [ceval, Res.bind_do, bind_ok_iff] at h
    obtain ⟨⟨w, σ1⟩, h1, h2⟩ := h
    intro x hx
    rw [ceval_unassigned b σ1 σ' v h2 x (fun k => hx (List.mem_append.2 (Or.inr k))), ceval_unassigned a σ σ1 w h1 x (fun k => hx (List.mem_append.2 (Or.inl k)))]
  | .assign y e, σ, σ', v, h => by
    simp only [ceval, Res.bind_do, bind_ok_iff] at h
    obtain ⟨⟨w, σ1⟩, h1, h⟩ := h
    simp only [Res.ok.injEq, Prod.mk.injEq] at h
    obtain ⟨rfl, rfl⟩ := h
    intro x hx
    rw [set_ne (fun k => hx (List.mem_cons.2 (Or.inl k))), ceval_unassigned e σ σ1 w h1 x (fun k => hx (List.mem_cons.2 (Or.inr k)))]
  | .opAssign op y e, σ, σ', v, h => by
    simp only [ceval, Res.bind_do, bind_ok_iff] at h
    obtain ⟨⟨w, σ1⟩, h1, r, h2, h⟩ := h
    simp only [Res.ok.injEq, Prod.mk.injEq] at h
    obtain ⟨rfl, rfl⟩ := h
    intro x hx
    rw [set_ne (fun k => hx (List.mem_cons.2 (Or.inl k))), ceval_unassigned e σ σ1 w h1 x (fun k => hx (List.mem_cons.2 (Or.inr k)))]
  | .incr pre up y, σ, σ', v, h => by
    simp only [ceval, Res.bind_do, bind_ok_iff] at h
    obtain ⟨r, h2, h⟩ := h
    simp only [Res.ok.injEq, Prod.mk.injEq] at h
    obtain ⟨rfl, rfl⟩ := h
    intro x hx
    rw [set_ne (fun k => hx (List.mem_singleton.2 k))]


theorem ceval_fits (hs : HostShift) (opt : Bool) {e : Expr} (hw : e.Wf) {τ τ1 : Store} {v : Int} (hτ : StoreOk Γ τ) (hv : ceval Γ e τ = .ok (v, τ1)) :
    InRange (e.ty Γ) v ∧ StoreOk Γ τ1 := by
  have := (build_impl (Γ := Γ) (nt := ty_int) (acc := 0) hs opt (by decide) e hw).range (by decide) τ hτ hv
  rwa [cty_ity] at this

theorem assigned_vars : ∀ (e : Expr) (x : Nat), x ∈ e.assigned → x ∈ e.vars
  | .num _ _, x, h => by cases h
  | .var _, x, h => by cases h
  | .cast _ e, x, h => assigned_vars e x h
  | .un _ e, x, h => assigned_vars e x h
  | .lnot e, x, h => assigned_vars e x h
  | .bin _ a b, x, h => List.mem_append.2 ((List.mem_append.1 h).imp (assigned_vars a x) (assigned_vars b x))
  | .cmp _ a b, x, h => List.mem_append.2 ((List.mem_append.1 h).imp (assigned_vars a x) (assigned_vars b x))
  | .land a b, x, h => List.mem_append.2 ((List.mem_append.1 h).imp (assigned_vars a x) (assigned_vars b x))
  | .lor a b, x, h => List.mem_append.2 ((List.mem_append.1 h).imp (assigned_vars a x) (assigned_vars b x))
  | .cond c a b, x, h => List.mem_append.2 ((List.mem_append.1 h).imp (assigned_vars c x) fun h =>
      List.mem_append.2 ((List.mem_append.1 h).imp (assigned_vars a x) (assigned_vars b x)))
  | .comma a b, x, h => List.mem_append.2 ((List.mem_append.1 h).imp (assigned_vars a x) (assigned_vars b x))
  | .assign y e, x, h => List.mem_cons.2 ((List.mem_cons.1 h).imp id (assigned_vars e x))
  | .opAssign _ y e, x, h => List.mem_cons.2 ((List.mem_cons.1 h).imp id (assigned_vars e x))
  | .incr _ _ y, x, h => h

/-- The arguments in `D` have been evaluated. -/
structure Mid (Γ : Nat → CTy) (es : List Expr) (D : Nat → Prop) (σ τ : Store) : Prop where
  sok : StoreOk Γ τ
  each : ∀ (i : Nat) (e : Expr) (w : Int) (σ1 : Store), es[i]? = some e → D i → ceval Γ e σ = .ok (w, σ1) → ∀ x ∈ e.assigned, τ x = σ1 x
  rest : ∀ x, (∀ (i : Nat) (e : Expr), es[i]? = some e → D i → x ∉ e.assigned) → τ x = σ x

theorem Mid.congr {es : List Expr} {D D' : Nat → Prop} {σ τ : Store} (h : Mid Γ es D σ τ) (hD : ∀ i, i < es.length → (D i ↔ D' i)) : Mid Γ es D' σ τ := by
  have lt : ∀ {i : Nat} {e : Expr}, es[i]? = some e → i < es.length := fun h => (List.getElem?_eq_some_iff.1 h).1
  exact ⟨h.sok, fun i e w σ1 he hd => h.each i e w σ1 he ((hD i (lt he)).2 hd), fun x hx => h.rest x fun i e he hd => hx i e he ((hD i (lt he)).1 hd)⟩

theorem Mid.nil (es : List Expr) {D : Nat → Prop} {σ : Store} (hσ : StoreOk Γ σ) (hD : ∀ i, ¬ D i) : Mid Γ es D σ σ :=
  ⟨hσ, fun i _ _ _ _ h => absurd h (hD i), fun _ _ => rfl⟩

/-- One more argument is evaluated. -/
theorem Mid.step (hs : HostShift) (opt : Bool) {es : List Expr} {D : Nat → Prop} {σ τ σ1 : Store} {j : Nat} {e : Expr} {v : Int} (hm : Mid Γ es D σ τ)
    (hI : ∀ (i j : Nat) (a b : Expr), es[i]? = some a → es[j]? = some b → i ≠ j → ∀ x ∈ a.assigned, x ∉ b.vars) (hj : es[j]? = some e) (hD : ¬ D j) (hw : e.Wf)
    (hv : ceval Γ e σ = .ok (v, σ1)) : ∃ τ1, ceval Γ e τ = .ok (v, τ1) ∧ Mid Γ es (fun i => D i ∨ i = j) σ τ1 := by
  have ag : AgreeOn (· ∈ e.vars) σ τ := fun x hx => (hm.rest x fun i a ha hd => fun hxa => hI i j a e ha hj (fun he => hD (he ▸ hd)) x hxa hx).symm
  obtain ⟨τ1, h1, h2⟩ := ceval_frame Γ (· ∈ e.vars) e σ τ σ1 v (fun _ h => h) ag hv
  refine ⟨τ1, h1, (ceval_fits hs opt hw hm.sok h1).2, fun i a w σ2 ha hd hc x hx => ?_, fun x hx => ?_⟩
  · rcases hd with hd | rfl
    · have hne : i ≠ j := fun he => hD (he ▸ hd)
      rw [ceval_keeps Γ e τ τ1 v h1 x (hI i j a e ha hj hne x hx)]
      exact hm.each i a w σ2 ha hd hc x hx
    · rw [hj] at ha; injection ha with ha; subst ha
      rw [hv] at hc; injection hc with hc; injection hc with _ hc; subst hc
      exact (h2 x (assigned_vars e x hx)).symm
  · rw [ceval_unassigned e τ τ1 v h1 x (hx j e hj (Or.inr rfl))]
    exact hm.rest x fun i a ha hd => hx i a ha (Or.inl hd)

/-! The expressions whose values are passed. -/

/-- The argument with its conversion. -/
def argExpr (Γ : Nat → CTy) (a : Actual) : Expr :=
  match a.param with
  | some t => .cast t a.e
  | none => if (a.e.ty Γ).bytes < 4 then .cast .int a.e else a.e

theorem argTree_build (hs : HostShift) (opt : Bool) (a : Actual) (hw : a.e.Wf) : argTree hs opt Γ a = build hs opt Γ (argExpr Γ a) := by
  have ht := (build_impl (Γ := Γ) (nt := ty_int) (acc := 0) hs opt (by decide) a.e hw).ty
  unfold argTree argExpr
  cases a.param with
  | some t => rfl
  | none =>
    dsimp only
    rw [ht, ← bytes_size]
    split <;> rfl

theorem promote_small (t : CTy) (h : t.bytes < 4) : t.promote = .int := by cases t <;> first | rfl | exact absurd h (by decide)
theorem promote_big (t : CTy) (h : ¬ t.bytes < 4) : t.promote = t := by cases t <;> first | rfl | exact absurd (by decide) h

theorem argExpr_ty (a : Actual) : (argExpr Γ a).ty Γ = a.ty Γ := by
  unfold argExpr Actual.ty
  cases a.param with
  | some t => rfl
  | none =>
    dsimp only
    split
    · rename_i h; rw [promote_small _ h]; rfl
    · rename_i h; rw [promote_big _ h]

theorem argExpr_vars (a : Actual) : (argExpr Γ a).vars = a.e.vars := by
  unfold argExpr; cases a.param with
  | some t => rfl
  | none => dsimp only; split <;> rfl
theorem argExpr_assigned (a : Actual) : (argExpr Γ a).assigned = a.e.assigned := by
  unfold argExpr; cases a.param with
  | some t => rfl
  | none => dsimp only; split <;> rfl
theorem argExpr_wf (a : Actual) (h : a.e.Wf) : (argExpr Γ a).Wf := by
  unfold argExpr; cases a.param with
  | some t => exact h
  | none => dsimp only; split <;> exact h
theorem argExpr_seq (a : Actual) (h : a.e.Sequenced) : (argExpr Γ a).Sequenced := by
  unfold argExpr; cases a.param with
  | some t => exact h
  | none => dsimp only; split <;> exact h

theorem ceval_castTo {e : Expr} {t : CTy} {σ σ1 : Store} {w : Int} (h : ceval Γ e σ = .ok (w, σ1)) : ceval Γ (.cast t e) σ = .ok (CTy.conv t w, σ1) := by
  show (do let (v, σ) ← ceval Γ e σ; Res.ok (CTy.conv t v, σ)) = _
  rw [h]; rfl

theorem argExpr_val (hs : HostShift) (a : Actual) (hw : a.e.Wf) {σ σ1 : Store} {w : Int} (hσ : StoreOk Γ σ) (h : ceval Γ a.e σ = .ok (w, σ1)) :
    ceval Γ (argExpr Γ a) σ = .ok (CTy.conv (a.ty Γ) w, σ1) := by
  have hr := (ceval_fits hs false hw hσ h).1
  unfold argExpr Actual.ty
  cases a.param with
  | some t => exact ceval_castTo h
  | none =>
    dsimp only
    split
    · rename_i h4; rw [promote_small _ h4]; exact ceval_castTo h
    · rename_i h4; rw [promote_big _ h4, conv_id _ _ hr]; exact h

/-- All arguments evaluated: the store is that of the specification. -/
theorem Mid.done (hs : HostShift) {as : List Actual} {σ σ' τ : Store} {vs : List Int} (hev : Evaluated Γ as σ σ' vs) (hσ : StoreOk Γ σ) (hw : ∀ a ∈ as, a.e.Wf)
    (h : Mid Γ (as.map (argExpr Γ)) (fun _ => True) σ τ) : τ = σ' := by
  funext x
  by_cases hx : ∃ a ∈ as, x ∈ a.e.assigned
  · obtain ⟨a, ha, hx⟩ := hx
    obtain ⟨i, hi, ea⟩ := List.getElem_of_mem ha
    have ea' : as[i]? = some a := List.getElem?_eq_some_iff.2 ⟨hi, ea⟩
    have hiv : i < vs.length := by rw [hev.len]; exact hi
    obtain ⟨w, σ1, h1, h2, h3⟩ := hev.each i a _ ea' (List.getElem?_eq_getElem hiv)
    rw [h3 x hx]
    exact h.each i (argExpr Γ a) _ σ1 (by rw [List.getElem?_map, ea']; rfl) trivial (argExpr_val hs a (hw a ha) hσ h1) x (by rw [argExpr_assigned]; exact hx)
  · have hx' : ∀ a ∈ as, x ∉ a.e.assigned := fun a ha h => hx ⟨a, ha, h⟩
    rw [hev.rest x hx']
    refine h.rest x fun i e he _ => ?_
    rw [List.getElem?_map] at he
    cases ha : as[i]? with
    | none => rw [ha] at he; cases he
    | some a =>
      rw [ha] at he; injection he with he
      rw [← he, argExpr_assigned]
      exact hx' a (List.mem_of_getElem? ha)

/-- Evaluation from left to right is one way to get there. -/
theorem cevals_evaluated (hs : HostShift) : ∀ (as : List Actual) (σ σ' : Store) (vs : List Int), Independent as → (∀ a ∈ as, a.e.Wf) → StoreOk Γ σ →
    cevals Γ as σ = .ok (vs, σ') → Evaluated Γ as σ σ' vs
  | [], σ, σ', vs, _, _, _, h => by
    injection h with h; injection h with h1 h2
    subst h1 h2
    exact ⟨rfl, fun i a v h => by simp at h, fun _ _ => rfl⟩
  | a :: as, σ, σ', vs, hI, hw, hσ, h => by
    simp only [cevals, Res.bind_do, bind_ok_iff] at h
    obtain ⟨⟨w, σ1⟩, h1, ⟨us, σ2⟩, h2, h⟩ := h
    injection h with h; injection h with e1 e2
    subst e1 e2
    have hIt : Independent as := fun i j a b ha hb hij => hI (i + 1) (j + 1) a b (by simpa using ha) (by simpa using hb) (by omega)
    have hwa := hw a (List.mem_cons_self ..)
    have hσ1 := (ceval_fits hs false hwa hσ h1).2
    have ih := cevals_evaluated hs as σ1 σ2 us hIt (fun b hb => hw b (List.mem_cons_of_mem _ hb)) hσ1 h2
    have hab : ∀ b ∈ as, ∀ x ∈ a.e.assigned, x ∉ b.e.vars := by
      intro b hb
      obtain ⟨j, hj, e⟩ := List.getElem_of_mem hb
      exact hI 0 (j + 1) a b rfl (by simpa using List.getElem?_eq_some_iff.2 ⟨hj, e⟩) (by omega)
    refine ⟨by simp [ih.len], fun i b v hb hv => ?_, fun x hx => ?_⟩
    · cases i with
      | zero =>
        simp only [List.getElem?_cons_zero, Option.some.injEq] at hb hv
        subst hb hv
        refine ⟨w, σ1, h1, rfl, fun x hx => ?_⟩
        exact ih.rest x fun b hb hxb => hab b hb x hx (assigned_vars _ _ hxb)
      | succ i =>
        simp only [List.getElem?_cons_succ] at hb hv
        obtain ⟨u, τ1, k1, k2, k3⟩ := ih.each i b v hb hv
        have hbm := List.mem_of_getElem? hb
        have ag : AgreeOn (· ∈ b.e.vars) σ1 σ := fun x hx => ceval_unassigned a.e σ σ1 w h1 x fun hxa => hab b hbm x hxa hx
        obtain ⟨τ2, l1, l2⟩ := ceval_frame Γ (· ∈ b.e.vars) b.e σ1 σ τ1 u (fun _ h => h) ag k1
        exact ⟨u, τ2, l1, k2, fun x hx => by dsimp only; rw [k3 x hx]; exact l2 x (assigned_vars _ _ hx)⟩
    · dsimp only
      rw [ih.rest x fun b hb => hx b (List.mem_cons_of_mem _ hb)]
      exact ceval_unassigned a.e σ σ1 w h1 x (hx a (List.mem_cons_self ..))

/-! Where the arguments go. -/

/-- The place of argument `i`. -/
def slotOf (h i : Nat) : CC.Slot := if h + i < 6 then .inRegs else .onStack (8 * (h + i - 6))

theorem conv_ints : ∀ (ts : List ITy) (h i : Nat) (c : CC.Cnt), c.gp = h + i → c.fp = 0 → c.stack = 8 * (h + i - 6) → c.maxAlign ≤ 16 →
    CC.conv (ts.map fun t => .scalar (.int t.size) t.size) c = ((List.range' i ts.length).map (slotOf h), { gp := h + i + ts.length, fp := 0, stack := 8 * (h + i + ts.length - 6), maxAlign := c.maxAlign })
  | [], h, i, c, hg, hf, hs, hm => by
    simp only [List.map_nil, CC.conv, List.length_nil, List.range'_zero, Nat.add_zero]
    rw [← hg, ← hf]
    cases c
    simp_all
  | t :: ts, h, i, c, hg, hf, hs, hm => by
    have ht : t.size = 1 ∨ t.size = 2 ∨ t.size = 4 ∨ t.size = 8 := size_cases t
    have ih := fun c' (a : c'.gp = h + (i + 1)) (b : c'.fp = 0) (d : c'.stack = 8 * (h + (i + 1) - 6)) (e : c'.maxAlign = c.maxAlign) =>
      conv_ints ts h (i + 1) c' a b d (e ▸ hm)
    have key : CC.convStep c (.scalar (.int t.size) t.size) = (slotOf h i, { gp := h + (i + 1), fp := 0, stack := 8 * (h + (i + 1) - 6), maxAlign := c.maxAlign }) := by
      simp only [CC.convStep, slotOf, hg, CC.gpMax]
      by_cases h6 : h + i < 6
      · rw [if_pos h6, if_pos h6, hf, hs]
        congr 2 <;> omega
      · rw [if_neg h6, if_neg h6]
        have ha : CC.alignTo t.size 8 = 8 := by unfold CC.alignTo; omega
        have hst : ∀ c : CC.Cnt, CC.toStack c (.scalar (.int t.size) t.size) = (.onStack c.stack, { c with stack := c.stack + CC.alignTo t.size 8 }) := by
          intro c
          have h8 : ¬ (CC.CTy.align (.scalar (.int t.size) t.size) > 8) := by show ¬ (t.size > 8); omega
          unfold CC.toStack
          rw [if_neg h8]
          rfl
        rw [hst, ha]
        dsimp only
        rw [hs, hf]
        congr 2 <;> omega
    simp only [List.map_cons, CC.conv, key]
    rw [ih ⟨h + (i + 1), 0, 8 * (h + (i + 1) - 6), c.maxAlign⟩ rfl rfl rfl rfl]
    simp only [List.length_cons, List.range'_succ, List.map_cons]
    rw [show h + (i + 1) + ts.length = h + i + (ts.length + 1) by omega]

end
end Slimcc
