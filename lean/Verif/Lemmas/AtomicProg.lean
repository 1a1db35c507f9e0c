import Verif.Lemmas.AtomicSim
/-! Programs of threads without the machine: programs that end, and counters. -/
set_option autoImplicit false
namespace Slimcc
open Slimcc.Spec Slimcc.Spec.CTy Slimcc.Atomic

namespace Atomic

theorem step_ok {p : Prog} {S : State} {i : Nat} {s : Stmt} {A : Store} {st : Nat × Store} (hc : (p.code i)[(S.th i).1]? = some s)
    (h : s.sem p.O (p.Γ i) S.A (S.th i).1 (S.th i).2 = .ok (A, st)) : p.step i S = .ok ⟨A, fun j => if j = i then st else S.th j⟩ := by
  unfold Prog.step
  rw [hc]
  dsimp only
  rw [h]
  rfl

/-- A step that is not one of a thread at its end. -/
theorem step_inv {p : Prog} {S S' : State} {i : Nat} (h : p.step i S = .ok S') (hlt : (S.th i).1 < (p.code i).length) :
    ∃ s A st, (p.code i)[(S.th i).1]? = some s ∧ s.sem p.O (p.Γ i) S.A (S.th i).1 (S.th i).2 = .ok (A, st) ∧ S' = ⟨A, fun j => if j = i then st else S.th j⟩ := by
  have hc := List.getElem?_eq_getElem hlt
  generalize (p.code i)[(S.th i).1] = s at hc
  unfold Prog.step at h
  rw [hc] at h
  simp only [Res.bind_do, bind_ok_iff, Res.ok.injEq] at h
  obtain ⟨⟨A, st⟩, h1, h2⟩ := h
  exact ⟨s, A, st, hc, h1, h2.symm⟩

/-- Statements that are defined whatever the values are. -/
theorem defined_of {p : Prog} (h : ∀ (i k : Nat) (s : Stmt), (p.code i)[k]? = some s → ∀ A σ, ∃ r, s.sem p.O (p.Γ i) A k σ = .ok r) (S : State) : p.Defined S := by
  intro l
  induction l generalizing S with
  | nil => exact ⟨S, rfl⟩
  | cons i l ih =>
    have : ∃ S', p.step i S = .ok S' := by
      cases hc : (p.code i)[(S.th i).1]? with
      | none => exact ⟨S, by unfold Prog.step; rw [hc]⟩
      | some s =>
        obtain ⟨⟨A, st⟩, hr⟩ := h i _ s hc S.A (S.th i).2
        exact ⟨_, step_ok hc hr⟩
    obtain ⟨S', h1⟩ := this
    obtain ⟨S'', h2⟩ := ih S'
    exact ⟨S'', by simp only [Prog.run, h1, Res.bind_do, ok_bind, h2]⟩

/-! ### Sums over the threads -/

theorem sumTo_congr {f g : Nat → Nat} (n : Nat) (h : ∀ i, i < n → f i = g i) : sumTo f n = sumTo g n := by
  induction n with
  | zero => rfl
  | succ n ih => rw [sumTo, sumTo, ih fun i hi => h i (by omega), h n (by omega)]

theorem sumTo_update {f g : Nat → Nat} (i n : Nat) (hi : i < n) (h : ∀ j, j ≠ i → f j = g j) : sumTo f n + g i = sumTo g n + f i := by
  induction n with
  | zero => omega
  | succ n ih =>
    rw [sumTo, sumTo]
    by_cases e : i = n
    · subst e
      rw [sumTo_congr i fun j hj => h j (by omega)]
      omega
    · have := ih (by omega)
      rw [h n (Ne.symm e)]
      omega

/-- The number of the next statement is above that of this one, for statements that jump only forward. -/
theorem sem_forward {O Γ : Nat → CTy} {A A' σ : Store} {k : Nat} {s : Stmt} {st : Nat × Store} (hf : ∀ e j, s = .branch e j → k < j) (h : s.sem O Γ A k σ = .ok (A', st)) :
    k < st.1 := by
  cases s with
  | branch e j =>
    simp only [Stmt.sem, Res.bind_do, bind_ok_iff, Res.ok.injEq, Prod.mk.injEq] at h
    obtain ⟨_, _, _, rfl⟩ := h
    have := hf e j rfl
    dsimp only
    split <;> omega
  | run e =>
    simp only [Stmt.sem, Res.bind_do, bind_ok_iff, Res.ok.injEq, Prod.mk.injEq] at h
    obtain ⟨_, _, _, rfl⟩ := h
    exact Nat.lt_succ_self k
  | load r g =>
    simp only [Stmt.sem, Res.ok.injEq, Prod.mk.injEq] at h
    obtain ⟨_, rfl⟩ := h
    exact Nat.lt_succ_self k
  | store g e =>
    simp only [Stmt.sem, Res.bind_do, bind_ok_iff, Res.ok.injEq, Prod.mk.injEq] at h
    obtain ⟨_, _, _, rfl⟩ := h
    exact Nat.lt_succ_self k
  | rmw r post g o e =>
    simp only [Stmt.sem, Res.bind_do, bind_ok_iff, Res.ok.injEq, Prod.mk.injEq] at h
    obtain ⟨_, _, _, _, _, rfl⟩ := h
    exact Nat.lt_succ_self k

/-- Finitely many threads that jump only forward end. -/
theorem ends_forward {p : Prog} (N : Nat) (hN : ∀ i, N ≤ i → p.code i = []) (hf : ∀ (i k : Nat) (s : Stmt), (p.code i)[k]? = some s → ∀ e j, s = .branch e j → k < j) (S : State) : p.Ends S := by
  generalize hm : sumTo (fun i => (p.code i).length - (S.th i).1) N = m
  induction m using Nat.strongRecOn generalizing S with
  | _ m ih =>
    refine .intro S fun i S' hlt hs => ?_
    obtain ⟨s, A, st, hc, hsem, rfl⟩ := step_inv hs hlt
    have hi : i < N := Nat.lt_of_not_le fun hn => by rw [hN i hn] at hlt; exact Nat.not_lt_zero _ hlt
    refine ih _ ?_ _ rfl
    have hup := sumTo_update (f := fun j => (p.code j).length - (if j = i then st else S.th j).1) (g := fun j => (p.code j).length - (S.th j).1) i N hi
      (fun j hj => by simp only [if_neg hj])
    simp only [if_true] at hup
    have := sem_forward (hf i _ s hc) hsem
    dsimp only
    omega

/-! ### Counters -/

theorem conv_succ (t : CTy) (ht : t ≠ .bool) (a : Int) : CTy.conv t (CTy.conv t a + 1) = CTy.conv t (a + 1) := by
  refine conv_eq_of_congr t _ _ ht ?_
  have := Int.dvd_of_emod_eq_zero (conv_congr t a ht)
  rwa [show CTy.conv t a + 1 - (a + 1) = CTy.conv t a - a from by omega]

theorem add_one (t : CTy) (ht : t ≠ .bool) (a : Int) : ∃ w, binop (.ar .add) t .int a 1 = .ok w ∧ CTy.conv t w = CTy.conv t (a + 1) := by
  have key : CTy.common t.promote CTy.int.promote ≠ .bool ∧ t.width ≤ (CTy.common t.promote CTy.int.promote).width := by
    cases t <;> first | exact absurd rfl ht | decide
  generalize hc : CTy.common t.promote CTy.int.promote = c at key
  refine ⟨CTy.conv c (CTy.conv c a + CTy.conv c 1), by simp only [binop, hc, arith], ?_⟩
  rw [conv_conv t c _ ht key.1 key.2]
  refine conv_eq_of_congr t _ _ ht (Int.dvd_trans (pow_dvd key.2) ?_)
  have h1 := Int.dvd_of_emod_eq_zero (conv_congr c a key.1)
  have h2 := Int.dvd_of_emod_eq_zero (conv_congr c 1 key.1)
  rw [show CTy.conv c a + CTy.conv c 1 - (a + 1) = (CTy.conv c a - a) + (CTy.conv c 1 - 1) from by omega]
  exact Int.dvd_add h1 h2

theorem inc_sem {O Γ : Nat → CTy} {A σ : Store} {k x : Nat} (ht : O x ≠ .bool) : (incStmt x).sem O Γ A k σ = .ok (A.set x (CTy.conv (O x) (A x + 1)), k + 1, σ) := by
  obtain ⟨w, h1, h2⟩ := add_one (O x) ht (A x)
  rw [incStmt, Thr.sem_rmw_eq (v := 1) (σ' := σ) rfl h1, h2]
  rfl

/-- The value of the counter and the number of increments done. -/
theorem count_run {p : Prog} {x N : Nat} {n : Nat → Nat} (ht : p.O x ≠ .bool) (hp : ∀ i, p.code i = List.replicate (n i) (incStmt x)) (hN : ∀ i, N ≤ i → n i = 0)
    {S : State} {a : Int} (h : S.A x = CTy.conv (p.O x) (a + sumTo (fun i => (S.th i).1) N)) {i : Nat} {S' : State} (hs : p.step i S = .ok S') (hlt : (S.th i).1 < (p.code i).length) :
    S'.A x = CTy.conv (p.O x) (a + sumTo (fun i => (S'.th i).1) N) := by
  obtain ⟨s, A, st, hc, hsem, rfl⟩ := step_inv hs hlt
  have hi : i < N := Nat.lt_of_not_le fun hn => by rw [hp, hN i hn] at hlt; exact Nat.not_lt_zero _ hlt
  rw [hp] at hc
  have := List.eq_of_mem_replicate (List.mem_of_getElem? hc)
  subst this
  rw [inc_sem ht] at hsem
  simp only [Res.ok.injEq, Prod.mk.injEq] at hsem
  obtain ⟨rfl, rfl⟩ := hsem
  dsimp only
  rw [set_eq, h, conv_succ _ ht]
  have hup := sumTo_update (f := fun j => (if j = i then ((S.th i).1 + 1, (S.th i).2) else S.th j).1) (g := fun j => (S.th j).1) i N hi
      (fun j hj => by simp only [if_neg hj])
  simp only [if_true] at hup
  congr 1
  omega

end Atomic
end Slimcc
