/-
What the caller loads, the callee stores.
-/
import Verif.Lemmas.CallWalk
set_option autoImplicit false

namespace Slimcc.CCL
open Slimcc.CC Slimcc.SysV

/-- The parts the callee stores are the eightbytes of the parameter. -/
structure PartsOf (t : CTy) (parts : List (Reg × Nat × Nat)) : Prop where
  length : parts.length = (t.size + 7) / 8
  at_ : ∀ (k : Nat) (r : Reg) (o n : Nat), parts[k]? = some (r, o, n) →
    o = 8 * k ∧ n = min 8 (t.size - 8 * k)

theorem storeParam_place (t : CTy) (g f : Nat) :
    (storeParam t g f).1.map (·.1) = (placeRegArg t g f).1 ∧
    (storeParam t g f).2 = (placeRegArg t g f).2 := by
  cases t with
  | agg un s a ms =>
    unfold storeParam placeRegArg
    cases hasFlonum1 (.agg un s a ms) <;> cases hasFlonum2 (.agg un s a ms) <;>
      by_cases h : (CTy.agg un s a ms).size > 8 <;> simp [h]
  | scalar k a => cases k <;> simp [storeParam, placeRegArg]
  | arr b n => simp [storeParam, placeRegArg]

theorem parts_one {t : CTy} {r : Reg} {n : Nat} (h0 : 0 < t.size) (h8 : t.size ≤ 8)
    (hn : n = t.size) : PartsOf t [(r, 0, n)] := by
  refine ⟨by simp only [List.length_singleton]; omega, ?_⟩
  intro k r o m h
  cases k with
  | zero => simp at h; omega
  | succ k => simp at h

theorem parts_two {t : CTy} {r r' : Reg} (h8 : 8 < t.size) (h16 : t.size ≤ 16) :
    PartsOf t [(r, 0, min 8 t.size), (r', 8, t.size - 8)] := by
  refine ⟨by simp only [List.length_cons, List.length_nil]; omega, ?_⟩
  intro k r o m h
  match k with
  | 0 => simp at h; omega
  | 1 => simp at h; omega
  | k + 2 => simp at h

theorem storeParam_parts {t : CTy} {c : Cnt} (g f : Nat)
    (hk : (∃ k a, t = .scalar k a ∧ ∀ n, k = .int n → n = 1 ∨ n = 2 ∨ n = 4 ∨ n = 8) ∨
      ∃ u s a ms, t = .agg u s a ms) (h0 : 0 < t.size)
    (hr : (convStep c t).1 = .inRegs) : PartsOf t (storeParam t g f).1 := by
  rcases hk with ⟨k, a, rfl, hk⟩ | ⟨un, s, a, ms, rfl⟩
  · cases k with
    | int n =>
      have := hk n rfl
      exact parts_one h0 (by simp only [CTy.size, SK.size]; omega) rfl
    | float => exact parts_one h0 (by simp [CTy.size, SK.size]) rfl
    | double => exact parts_one h0 (by simp [CTy.size, SK.size]) rfl
    | ldouble =>
      have h := (toStack_regs c (.scalar .ldouble a)).2.2.1
      have : convStep c (.scalar .ldouble a) = toStack c (.scalar .ldouble a) := rfl
      rw [this, h] at hr
      cases hr
  · by_cases hs : (CTy.agg un s a ms).size ≤ 16
    · unfold storeParam
      by_cases h8 : (CTy.agg un s a ms).size > 8
      · cases hasFlonum1 (.agg un s a ms) <;> cases hasFlonum2 (.agg un s a ms) <;>
          simp only [h8, if_true, Bool.false_eq_true, if_false] <;> exact parts_two h8 hs
      · cases hasFlonum1 (.agg un s a ms) <;>
          simp only [h8, if_true, Bool.false_eq_true, if_false] <;>
          exact parts_one h0 (by omega) (by omega)
    · have h := (toStack_regs c (.agg un s a ms)).2.2.1
      have : convStep c (.agg un s a ms) = toStack c (.agg un s a ms) := by
        simp only [convStep, if_neg hs]
      rw [this, h] at hr
      cases hr

/-- The callee's walk. -/
def walkP : List CTy → Cnt → List Param
  | [], _ => []
  | t :: ts, c =>
    (match (convStep c t).1 with
     | .inRegs => .stored (storeParam t (min c.gp 6) (min c.fp 8)).1
     | .onStack o => .atRbp (o + 16)) :: walkP ts (convStep c t).2

theorem calleeLocs_walk (ts : List CTy) : ∀ (c : Cnt),
    calleeLocs ts (conv ts c).1 (min c.gp 6) (min c.fp 8) = walkP ts c := by
  induction ts with
  | nil => exact fun _ => rfl
  | cons t ts ih =>
    intro c
    rw [conv, walkP]
    rcases convStep_cases c t with ⟨e, hn, -⟩ | ⟨e, h1, h2, -⟩
    · rw [← (storeParam_place t _ _).2] at hn
      have k1 : (storeParam t (min c.gp 6) (min c.fp 8)).2.1 = min (convStep c t).2.gp 6 := by
        rw [hn]
      have k2 : (storeParam t (min c.gp 6) (min c.fp 8)).2.2 = min (convStep c t).2.fp 8 := by
        rw [hn]
      simp only [e, calleeLocs]
      rw [k1, k2, ih]
    · simp only [e, calleeLocs]
      rw [← h1, ← h2, ih]

theorem params_walk (ts : List CTy) (n : Nat) :
    params ts n = (walkP ts { gp := b2n (n > 16), fp := 0 },
      after ts { gp := b2n (n > 16), fp := 0 }) := by
  unfold params
  have h := calleeLocs_walk ts { gp := b2n (n > 16), fp := 0 }
  have hb : b2n (decide (n > 16)) ≤ 1 := by unfold b2n; split <;> omega
  rw [show min (Cnt.gp { gp := b2n (decide (n > 16)), fp := 0 }) 6 = b2n (decide (n > 16)) by
    simp only; omega] at h
  simp only [Nat.zero_min] at h
  simp only [h, conv_after]

/-- Caller and callee, argument by argument. -/
theorem sides (ts : List CTy) : ∀ (c : Cnt) (i : Nat) (t : CTy), ts[i]? = some t →
    ((∃ k a, t = .scalar k a ∧ ∀ n, k = .int n → n = 1 ∨ n = 2 ∨ n = 4 ∨ n = 8) ∨
      ∃ u s a ms, t = .agg u s a ms) → 0 < t.size →
    (∃ parts, (walk ts c)[i]? = some (.regs (parts.map (·.1))) ∧
      (walkP ts c)[i]? = some (.stored parts) ∧ PartsOf t parts) ∨
    ∃ o, (walk ts c)[i]? = some (.stack o) ∧ (walkP ts c)[i]? = some (.atRbp (o + 16)) := by
  induction ts with
  | nil => intro c i t h; simp at h
  | cons t ts ih =>
    intro c i t' h hk h0
    cases i with
    | zero =>
      simp only [List.getElem?_cons_zero, Option.some.injEq] at h
      subst h
      simp only [walk, walkP, List.getElem?_cons_zero, Option.some.injEq]
      rcases convStep_cases c t with ⟨e, -⟩ | ⟨e, -⟩
      · refine .inl ⟨_, ?_, by rw [e], storeParam_parts (min c.gp 6) (min c.fp 8) hk h0 e⟩
        rw [e, (storeParam_place t _ _).1]
      · exact .inr ⟨_, by rw [e], by rw [e]⟩
    | succ i =>
      simp only [List.getElem?_cons_succ] at h
      simp only [walk, walkP, List.getElem?_cons_succ]
      exact ih _ i t' h hk h0

/-- The ABI leaves no choice. -/
theorem step_unique {t : CTy} {u u₁ u₂ : Used} {l₁ l₂ : Loc} (h₁ : Step t u l₁ u₁)
    (h₂ : Step t u l₂ u₂) : l₁ = l₂ ∧ u₁ = u₂ := by
  cases h₁ with
  | regs a b c =>
    cases h₂ with
    | regs => exact ⟨rfl, rfl⟩
    | stack h => rcases h with h | h | h <;> first | exact absurd h a | omega
  | stack h =>
    cases h₂ with
    | regs a b c => rcases h with h | h | h <;> first | exact absurd h a | omega
    | stack => exact ⟨rfl, rfl⟩

theorem passed_unique {ts : List CTy} : ∀ {u u₁ u₂ : Used} {l₁ l₂ : List Loc},
    Passed ts u l₁ u₁ → Passed ts u l₂ u₂ → l₁ = l₂ ∧ u₁ = u₂ := by
  induction ts with
  | nil => intro u u₁ u₂ l₁ l₂ h₁ h₂; cases h₁; cases h₂; exact ⟨rfl, rfl⟩
  | cons t ts ih =>
    intro u u₁ u₂ l₁ l₂ h₁ h₂
    cases h₁ with
    | cons s₁ p₁ =>
      cases h₂ with
      | cons s₂ p₂ =>
        obtain ⟨rfl, rfl⟩ := step_unique s₁ s₂
        obtain ⟨rfl, rfl⟩ := ih p₁ p₂
        exact ⟨rfl, rfl⟩

end Slimcc.CCL
