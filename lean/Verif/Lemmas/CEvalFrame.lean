import Verif.Spec.Sequenced
import Verif.Lemmas.BuildOk
/-! The value of an expression depends on its variables only, and only they change. -/
set_option autoImplicit false
namespace Slimcc
open Slimcc.Spec

/-- The stores agree on the variables in `V`. -/
def AgreeOn (V : Nat → Prop) (σ τ : Store) : Prop := ∀ x, V x → σ x = τ x

theorem AgreeOn.set {V : Nat → Prop} {σ τ : Store} (h : AgreeOn V σ τ) (x : Nat) (v : Int) : AgreeOn V (σ.set x v) (τ.set x v) := by
  intro y hy
  unfold Store.set
  split
  · rfl
  · exact h y hy

theorem AgreeOn.set_right {V : Nat → Prop} {σ τ : Store} (h : AgreeOn V σ τ) {x : Nat} (hx : ¬ V x) (v : Int) : AgreeOn V σ (τ.set x v) := by
  intro y hy
  unfold Store.set
  split
  · rename_i e; subst e; exact absurd hy hx
  · exact h y hy

theorem Res.bind_do {α β : Type} (r : Res α) (f : α → Res β) : (r >>= f) = r.bind f := rfl

section
variable (Γ : Nat → CTy) (V : Nat → Prop)

theorem ceval_frame : ∀ (e : Expr) (σ τ σ' : Store) (v : Int), (∀ x ∈ e.vars, V x) → AgreeOn V σ τ → ceval Γ e σ = .ok (v, σ') →
    ∃ τ', ceval Γ e τ = .ok (v, τ') ∧ AgreeOn V σ' τ'
  | .num t w, σ, τ, σ', v, _, ha, h => by
    simp only [ceval, Res.ok.injEq, Prod.mk.injEq] at h
    obtain ⟨rfl, rfl⟩ := h
    exact ⟨τ, rfl, ha⟩
  | .var x, σ, τ, σ', v, hv, ha, h => by
    simp only [ceval, Res.ok.injEq, Prod.mk.injEq] at h
    obtain ⟨rfl, rfl⟩ := h
    exact ⟨τ, by simp only [ceval]; rw [ha x (hv x (List.mem_singleton.2 rfl))], ha⟩
  | .cast t e, σ, τ, σ', v, hv, ha, h => by
    simp only [ceval, Res.bind_do, bind_ok_iff] at h ⊢
    obtain ⟨⟨w, σ1⟩, h1, h⟩ := h
    simp only [Res.ok.injEq, Prod.mk.injEq] at h
    obtain ⟨rfl, rfl⟩ := h
    obtain ⟨τ1, t1, a1⟩ := ceval_frame e σ τ σ1 w hv ha h1
    exact ⟨τ1, ⟨_, t1, rfl⟩, a1⟩
  | .un op e, σ, τ, σ', v, hv, ha, h => by
    simp only [ceval, Res.bind_do, bind_ok_iff] at h ⊢
    obtain ⟨⟨w, σ1⟩, h1, h⟩ := h
    simp only [Res.ok.injEq, Prod.mk.injEq] at h
    obtain ⟨rfl, rfl⟩ := h
    obtain ⟨τ1, t1, a1⟩ := ceval_frame e σ τ σ1 w hv ha h1
    exact ⟨τ1, ⟨_, t1, rfl⟩, a1⟩
  | .lnot e, σ, τ, σ', v, hv, ha, h => by
    simp only [ceval, Res.bind_do, bind_ok_iff] at h ⊢
    obtain ⟨⟨w, σ1⟩, h1, h⟩ := h
    simp only [Res.ok.injEq, Prod.mk.injEq] at h
    obtain ⟨rfl, rfl⟩ := h
    obtain ⟨τ1, t1, a1⟩ := ceval_frame e σ τ σ1 w hv ha h1
    exact ⟨τ1, ⟨_, t1, rfl⟩, a1⟩
  | .bin op a b, σ, τ, σ', v, hv, ha, h => by
    simp only [ceval, Res.bind_do, bind_ok_iff] at h ⊢
    obtain ⟨⟨w, σ1⟩, h1, ⟨u, σ2⟩, h2, r, h3, h⟩ := h
    simp only [Res.ok.injEq, Prod.mk.injEq] at h
    obtain ⟨rfl, rfl⟩ := h
    obtain ⟨τ1, t1, a1⟩ := ceval_frame a σ τ σ1 w (fun x hx => hv x (List.mem_append.2 (Or.inl hx))) ha h1
    obtain ⟨τ2, t2, a2⟩ := ceval_frame b σ1 τ1 σ2 u (fun x hx => hv x (List.mem_append.2 (Or.inr hx))) a1 h2
    exact ⟨τ2, ⟨_, t1, _, t2, _, h3, rfl⟩, a2⟩
  | .cmp op a b, σ, τ, σ', v, hv, ha, h => by
    simp only [ceval, Res.bind_do, bind_ok_iff] at h ⊢
    obtain ⟨⟨w, σ1⟩, h1, ⟨u, σ2⟩, h2, h⟩ := h
    simp only [Res.ok.injEq, Prod.mk.injEq] at h
    obtain ⟨rfl, rfl⟩ := h
    obtain ⟨τ1, t1, a1⟩ := ceval_frame a σ τ σ1 w (fun x hx => hv x (List.mem_append.2 (Or.inl hx))) ha h1
    obtain ⟨τ2, t2, a2⟩ := ceval_frame b σ1 τ1 σ2 u (fun x hx => hv x (List.mem_append.2 (Or.inr hx))) a1 h2
    exact ⟨τ2, ⟨_, t1, _, t2, rfl⟩, a2⟩
  | .land a b, σ, τ, σ', v, hv, ha, h => by
    simp only [ceval, Res.bind_do, bind_ok_iff] at h ⊢
    obtain ⟨⟨w, σ1⟩, h1, h⟩ := h
    obtain ⟨τ1, t1, a1⟩ := ceval_frame a σ τ σ1 w (fun x hx => hv x (List.mem_append.2 (Or.inl hx))) ha h1
    dsimp only at h
    by_cases hw : w = 0
    · simp only [hw, if_true, Res.ok.injEq, Prod.mk.injEq] at h
      obtain ⟨rfl, rfl⟩ := h
      exact ⟨τ1, ⟨_, t1, by simp only [hw, if_true]⟩, a1⟩
    · simp only [hw, if_false, bind_ok_iff] at h
      obtain ⟨⟨u, σ2⟩, h2, h⟩ := h
      simp only [Res.ok.injEq, Prod.mk.injEq] at h
      obtain ⟨rfl, rfl⟩ := h
      obtain ⟨τ2, t2, a2⟩ := ceval_frame b σ1 τ1 σ2 u (fun x hx => hv x (List.mem_append.2 (Or.inr hx))) a1 h2
      exact ⟨τ2, ⟨_, t1, by simp only [hw, if_false, bind_ok_iff]; exact ⟨_, t2, rfl⟩⟩, a2⟩
  | .lor a b, σ, τ, σ', v, hv, ha, h => by
    simp only [ceval, Res.bind_do, bind_ok_iff] at h ⊢
    obtain ⟨⟨w, σ1⟩, h1, h⟩ := h
    obtain ⟨τ1, t1, a1⟩ := ceval_frame a σ τ σ1 w (fun x hx => hv x (List.mem_append.2 (Or.inl hx))) ha h1
    dsimp only at h
    by_cases hw : w ≠ 0
    · rw [if_pos hw] at h
      simp only [Res.ok.injEq, Prod.mk.injEq] at h
      obtain ⟨rfl, rfl⟩ := h
      exact ⟨τ1, ⟨_, t1, by dsimp only; rw [if_pos hw]⟩, a1⟩
    · rw [if_neg hw, bind_ok_iff] at h
      obtain ⟨⟨u, σ2⟩, h2, h⟩ := h
      simp only [Res.ok.injEq, Prod.mk.injEq] at h
      obtain ⟨rfl, rfl⟩ := h
      obtain ⟨τ2, t2, a2⟩ := ceval_frame b σ1 τ1 σ2 u (fun x hx => hv x (List.mem_append.2 (Or.inr hx))) a1 h2
      exact ⟨τ2, ⟨_, t1, by dsimp only; rw [if_neg hw, bind_ok_iff]; exact ⟨_, t2, rfl⟩⟩, a2⟩
  | .cond c a b, σ, τ, σ', v, hv, ha, h => by
    simp only [ceval, Res.bind_do, bind_ok_iff] at h ⊢
    obtain ⟨⟨w, σ1⟩, h1, h⟩ := h
    obtain ⟨τ1, t1, a1⟩ := ceval_frame c σ τ σ1 w (fun x hx => hv x (List.mem_append.2 (Or.inl hx))) ha h1
    dsimp only at h
    by_cases hw : w ≠ 0
    · rw [if_pos hw, bind_ok_iff] at h
      obtain ⟨⟨u, σ2⟩, h2, h⟩ := h
      simp only [Res.ok.injEq, Prod.mk.injEq] at h
      obtain ⟨rfl, rfl⟩ := h
      obtain ⟨τ2, t2, a2⟩ := ceval_frame a σ1 τ1 σ2 u (fun x hx => hv x (List.mem_append.2 (Or.inr (List.mem_append.2 (Or.inl hx))))) a1 h2
      exact ⟨τ2, ⟨_, t1, by dsimp only; rw [if_pos hw, bind_ok_iff]; exact ⟨_, t2, rfl⟩⟩, a2⟩
    · rw [if_neg hw, bind_ok_iff] at h
      obtain ⟨⟨u, σ2⟩, h2, h⟩ := h
      simp only [Res.ok.injEq, Prod.mk.injEq] at h
      obtain ⟨rfl, rfl⟩ := h
      obtain ⟨τ2, t2, a2⟩ := ceval_frame b σ1 τ1 σ2 u (fun x hx => hv x (List.mem_append.2 (Or.inr (List.mem_append.2 (Or.inr hx))))) a1 h2
      exact ⟨τ2, ⟨_, t1, by dsimp only; rw [if_neg hw, bind_ok_iff]; exact ⟨_, t2, rfl⟩⟩, a2⟩
  | .comma a b, σ, τ, σ', v, hv, ha, h => by
    simp only [ceval, Res.bind_do, bind_ok_iff] at h ⊢
    obtain ⟨⟨w, σ1⟩, h1, h2⟩ := h
    obtain ⟨τ1, t1, a1⟩ := ceval_frame a σ τ σ1 w (fun x hx => hv x (List.mem_append.2 (Or.inl hx))) ha h1
    obtain ⟨τ2, t2, a2⟩ := ceval_frame b σ1 τ1 σ' v (fun x hx => hv x (List.mem_append.2 (Or.inr hx))) a1 h2
    exact ⟨τ2, ⟨_, t1, t2⟩, a2⟩
  | .assign x e, σ, τ, σ', v, hv, ha, h => by
    simp only [ceval, Res.bind_do, bind_ok_iff] at h ⊢
    obtain ⟨⟨w, σ1⟩, h1, h⟩ := h
    simp only [Res.ok.injEq, Prod.mk.injEq] at h
    obtain ⟨rfl, rfl⟩ := h
    obtain ⟨τ1, t1, a1⟩ := ceval_frame e σ τ σ1 w (fun x hx => hv x (List.mem_cons.2 (Or.inr hx))) ha h1
    exact ⟨_, ⟨_, t1, rfl⟩, a1.set _ _⟩
  | .opAssign op x e, σ, τ, σ', v, hv, ha, h => by
    simp only [ceval, Res.bind_do, bind_ok_iff] at h ⊢
    obtain ⟨⟨w, σ1⟩, h1, r, h2, h⟩ := h
    simp only [Res.ok.injEq, Prod.mk.injEq] at h
    obtain ⟨rfl, rfl⟩ := h
    obtain ⟨τ1, t1, a1⟩ := ceval_frame e σ τ σ1 w (fun x hx => hv x (List.mem_cons.2 (Or.inr hx))) ha h1
    rw [ha x (hv x (List.mem_cons.2 (Or.inl rfl)))] at h2
    exact ⟨_, ⟨_, t1, _, h2, rfl⟩, a1.set _ _⟩
  | .incr pre up x, σ, τ, σ', v, hv, ha, h => by
    simp only [ceval, Res.bind_do, bind_ok_iff] at h ⊢
    obtain ⟨r, h2, h⟩ := h
    simp only [Res.ok.injEq, Prod.mk.injEq] at h
    obtain ⟨rfl, rfl⟩ := h
    have := ha x (hv x (List.mem_singleton.2 rfl))
    rw [this] at h2 ⊢
    exact ⟨_, ⟨_, h2, rfl⟩, ha.set _ _⟩

theorem set_ne {σ : Store} {x y : Nat} {v : Int} (h : y ≠ x) : (σ.set x v) y = σ y := by unfold Store.set; rw [if_neg h]
theorem set_eq {σ : Store} {x : Nat} {v : Int} : (σ.set x v) x = v := by unfold Store.set; rw [if_pos rfl]

theorem ceval_keeps : ∀ (e : Expr) (σ σ' : Store) (v : Int), ceval Γ e σ = .ok (v, σ') → ∀ x, x ∉ e.vars → σ' x = σ x
  | .num t w, σ, σ', v, h => by
    simp only [ceval, Res.ok.injEq, Prod.mk.injEq] at h
    obtain ⟨rfl, rfl⟩ := h
    exact fun _ _ => rfl
  | .var x, σ, σ', v, h => by
    simp only [ceval, Res.ok.injEq, Prod.mk.injEq] at h
    obtain ⟨rfl, rfl⟩ := h
    exact fun _ _ => rfl
  | .cast t e, σ, σ', v, h => by
    simp only [ceval, Res.bind_do, bind_ok_iff] at h
    obtain ⟨⟨w, σ1⟩, h1, h⟩ := h
    simp only [Res.ok.injEq, Prod.mk.injEq] at h
    obtain ⟨rfl, rfl⟩ := h
    exact ceval_keeps e σ σ1 w h1
  | .un op e, σ, σ', v, h => by
    simp only [ceval, Res.bind_do, bind_ok_iff] at h
    obtain ⟨⟨w, σ1⟩, h1, h⟩ := h
    simp only [Res.ok.injEq, Prod.mk.injEq] at h
    obtain ⟨rfl, rfl⟩ := h
    exact ceval_keeps e σ σ1 w h1
  | .lnot e, σ, σ', v, h => by
    simp only [ceval, Res.bind_do, bind_ok_iff] at h
    obtain ⟨⟨w, σ1⟩, h1, h⟩ := h
    simp only [Res.ok.injEq, Prod.mk.injEq] at h
    obtain ⟨rfl, rfl⟩ := h
    exact ceval_keeps e σ σ1 w h1
  | .bin op a b, σ, σ', v, h => by
    simp only [ceval, Res.bind_do, bind_ok_iff] at h
    obtain ⟨⟨w, σ1⟩, h1, ⟨u, σ2⟩, h2, r, h3, h⟩ := h
    simp only [Res.ok.injEq, Prod.mk.injEq] at h
    obtain ⟨rfl, rfl⟩ := h
    intro x hx
    rw [ceval_keeps b σ1 σ2 u h2 x (fun k => hx (List.mem_append.2 (Or.inr k))), ceval_keeps a σ σ1 w h1 x (fun k => hx (List.mem_append.2 (Or.inl k)))]
  | .cmp op a b, σ, σ', v, h => by
    simp only [ceval, Res.bind_do, bind_ok_iff] at h
    obtain ⟨⟨w, σ1⟩, h1, ⟨u, σ2⟩, h2, h⟩ := h
    simp only [Res.ok.injEq, Prod.mk.injEq] at h
    obtain ⟨rfl, rfl⟩ := h
    intro x hx
    rw [ceval_keeps b σ1 σ2 u h2 x (fun k => hx (List.mem_append.2 (Or.inr k))), ceval_keeps a σ σ1 w h1 x (fun k => hx (List.mem_append.2 (Or.inl k)))]
  | .land a b, σ, σ', v, h => by
    simp only [ceval, Res.bind_do, bind_ok_iff] at h
    obtain ⟨⟨w, σ1⟩, h1, h⟩ := h
    intro x hx
    have ka := ceval_keeps a σ σ1 w h1 x (fun k => hx (List.mem_append.2 (Or.inl k)))
    dsimp only at h
    by_cases hw : w = 0
    · simp only [hw, if_true, Res.ok.injEq, Prod.mk.injEq] at h
      rw [← h.2, ka]
    · simp only [hw, if_false, bind_ok_iff] at h
      obtain ⟨⟨u, σ2⟩, h2, h⟩ := h
      simp only [Res.ok.injEq, Prod.mk.injEq] at h
      rw [← h.2, ceval_keeps b σ1 σ2 u h2 x (fun k => hx (List.mem_append.2 (Or.inr k))), ka]
  | .lor a b, σ, σ', v, h => by
    simp only [ceval, Res.bind_do, bind_ok_iff] at h
    obtain ⟨⟨w, σ1⟩, h1, h⟩ := h
    intro x hx
    have ka := ceval_keeps a σ σ1 w h1 x (fun k => hx (List.mem_append.2 (Or.inl k)))
    dsimp only at h
    by_cases hw : w ≠ 0
    · rw [if_pos hw] at h
      simp only [Res.ok.injEq, Prod.mk.injEq] at h
      rw [← h.2, ka]
    · rw [if_neg hw, bind_ok_iff] at h
      obtain ⟨⟨u, σ2⟩, h2, h⟩ := h
      simp only [Res.ok.injEq, Prod.mk.injEq] at h
      rw [← h.2, ceval_keeps b σ1 σ2 u h2 x (fun k => hx (List.mem_append.2 (Or.inr k))), ka]
  | .cond c a b, σ, σ', v, h => by
    simp only [ceval, Res.bind_do, bind_ok_iff] at h
    obtain ⟨⟨w, σ1⟩, h1, h⟩ := h
    intro x hx
    have ka := ceval_keeps c σ σ1 w h1 x (fun k => hx (List.mem_append.2 (Or.inl k)))
    dsimp only at h
    by_cases hw : w ≠ 0
    · rw [if_pos hw, bind_ok_iff] at h
      obtain ⟨⟨u, σ2⟩, h2, h⟩ := h
      simp only [Res.ok.injEq, Prod.mk.injEq] at h
      rw [← h.2, ceval_keeps a σ1 σ2 u h2 x (fun k => hx (List.mem_append.2 (Or.inr (List.mem_append.2 (Or.inl k))))), ka]
    · rw [if_neg hw, bind_ok_iff] at h
      obtain ⟨⟨u, σ2⟩, h2, h⟩ := h
      simp only [Res.ok.injEq, Prod.mk.injEq] at h
      rw [← h.2, ceval_keeps b σ1 σ2 u h2 x (fun k => hx (List.mem_append.2 (Or.inr (List.mem_append.2 (Or.inr k))))), ka]
  | .comma a b, σ, σ', v, h => by
    simp only [ceval, Res.bind_do, bind_ok_iff] at h
    obtain ⟨⟨w, σ1⟩, h1, h2⟩ := h
    intro x hx
    rw [ceval_keeps b σ1 σ' v h2 x (fun k => hx (List.mem_append.2 (Or.inr k))), ceval_keeps a σ σ1 w h1 x (fun k => hx (List.mem_append.2 (Or.inl k)))]
  | .assign y e, σ, σ', v, h => by
    simp only [ceval, Res.bind_do, bind_ok_iff] at h
    obtain ⟨⟨w, σ1⟩, h1, h⟩ := h
    simp only [Res.ok.injEq, Prod.mk.injEq] at h
    obtain ⟨rfl, rfl⟩ := h
    intro x hx
    rw [set_ne (fun k => hx (List.mem_cons.2 (Or.inl k))), ceval_keeps e σ σ1 w h1 x (fun k => hx (List.mem_cons.2 (Or.inr k)))]
  | .opAssign op y e, σ, σ', v, h => by
    simp only [ceval, Res.bind_do, bind_ok_iff] at h
    obtain ⟨⟨w, σ1⟩, h1, r, h2, h⟩ := h
    simp only [Res.ok.injEq, Prod.mk.injEq] at h
    obtain ⟨rfl, rfl⟩ := h
    intro x hx
    rw [set_ne (fun k => hx (List.mem_cons.2 (Or.inl k))), ceval_keeps e σ σ1 w h1 x (fun k => hx (List.mem_cons.2 (Or.inr k)))]
  | .incr pre up y, σ, σ', v, h => by
    simp only [ceval, Res.bind_do, bind_ok_iff] at h
    obtain ⟨r, h2, h⟩ := h
    simp only [Res.ok.injEq, Prod.mk.injEq] at h
    obtain ⟨rfl, rfl⟩ := h
    intro x hx
    rw [set_ne (fun k => hx (List.mem_singleton.2 k))]

end
end Slimcc
