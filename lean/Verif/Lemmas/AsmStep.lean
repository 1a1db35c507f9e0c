/-
The functions of register assignment keep the invariant.
-/
import Verif.Lemmas.AsmInv
set_option autoImplicit false

namespace Slimcc.AsmL
open Slimcc.Asm Slimcc.AsmSpec

theorem setAt_same {α : Type} (f : Nat → α) (i : Nat) (a : α) : setAt f i a i = a := by
  simp [setAt]

theorem setAt_other {α : Type} (f : Nat → α) {i j : Nat} (a : α) (h : j ≠ i) :
    setAt f i a j = f j := by
  simp [setAt, h]

theorem setAt_keep {f : Reg → Bool} (r q : Reg) (h : f q = true) : setAt f r true q = true := by
  unfold setAt
  split
  · rfl
  · exact h

theorem setAt_new {f : Reg → Bool} {r q : Reg} (h : setAt f r true q = true) :
    f q = true ∨ q = r := by
  unfold setAt at h
  split at h
  · exact .inr (by assumption)
  · exact .inl h

theorem setUse_put {cons : Nat → List Char} {s : St} {i : Nat} {o : Op}
    (hn : (s.ops i).kind = .none) (hc : o.cons = (s.ops i).cons) (hc' : o.cons = cons i)
    (ha : o.arg = (s.ops i).arg) (hm : o.mtch = (s.ops i).mtch)
    (hk : o.kind = .reg ∨ (o.kind = .mem ∧ o.reg ≠ 0)) (hf : Flags (cons i) o) :
    ∃ t, Put cons s (setUse { s with ops := setAt s.ops i o } i) i o.reg t ∧
      (setUse { s with ops := setAt s.ops i o } i).ops i = o := by
  have hplace : placeOf o = .inReg o.reg ∨ placeOf o = .memoryAt o.reg := by
    unfold placeOf
    rcases hk with hk | ⟨hk, h0⟩
    · rw [hk]; exact .inl rfl
    · rw [hk]; simp [h0]
  have hkn : o.kind ≠ .none := by
    rcases hk with hk | ⟨hk, -⟩ <;> rw [hk] <;> simp
  -- the three cases of `setUse`
  unfold setUse
  simp only [setAt_same]
  have hmark : mark o = (cons i).head? := by rw [mark, hc']
  by_cases h1 : mark o ≠ some '=' ∧ mark o ≠ some '+'
  · rw [if_pos h1]
    refine ⟨none, ⟨rfl, hn, ?_, ?_, ?_, ?_, ?_, ?_, ?_, ?_, ?_, ?_, ?_, ?_, ?_⟩, ?_⟩ <;>
      (try simp only [setAt_same])
    · exact hc
    · exact ha
    · exact hm
    · exact hplace
    · simp
    · simp
    · intro j hj _; exact setAt_other _ _ hj
    · intro q hq; exact setAt_keep _ _ hq
    · intro q hq; exact hq
    · intro q hq; exact setAt_new hq
    · intro q hq; exact .inl hq
    · simp
    · intro h
      rcases h with h | h
      · exfalso
        rw [hmark] at h1
        rcases hplace with e | e
        · rw [e] at h
          rcases h with h | h
          · exact h1.1 h
          · exact h1.2 h
        · rw [e] at h; exact h
      · exact absurd rfl h
  · rw [if_neg h1]
    have hout : IsOutput (cons i) := by
      rw [hmark] at h1
      by_cases e : (cons i).head? = some '='
      · exact .inl e
      · exact .inr (Classical.byContradiction fun e' => h1 ⟨e, e'⟩)
    split
    · rename_i h2
      refine ⟨none, ⟨rfl, hn, ?_, ?_, ?_, ?_, ?_, ?_, ?_, ?_, ?_, ?_, ?_, ?_, ?_⟩, ?_⟩ <;>
        (try simp only [setAt_same])
      · exact hc
      · exact ha
      · exact hm
      · exact hplace
      · simp
      · simp
      · intro j hj _; exact setAt_other _ _ hj
      · intro q hq; exact hq
      · intro q hq; exact setAt_keep _ _ hq
      · intro q hq; exact .inl hq
      · intro q hq; exact setAt_new hq
      · intro h
        exfalso
        rcases h with h | h
        · have e : placeOf o = .inReg o.reg := by unfold placeOf; rw [h2.2.1]
          rw [e] at h
          rcases h with h | h | h
          · exact h hout
          · rw [hmark, h] at h2; exact absurd h2.1 (by decide)
          · have := hf.early.mpr h
            rw [h2.2.2.1] at this
            cases this
        · exact h rfl
      · simp
    · -- both sets, and perhaps the tied operand
      have plain : Put cons s ⟨s.cnt, setAt s.ops i o, setAt s.inU o.reg true,
          setAt s.outU o.reg true⟩ i o.reg none := by
        refine ⟨rfl, hn, ?_, ?_, ?_, ?_, ?_, ?_, ?_, ?_, ?_, ?_, ?_, ?_, ?_⟩ <;>
          (try simp only [setAt_same])
        · exact hc
        · exact ha
        · exact hm
        · exact hplace
        · simp
        · simp
        · intro j hj _; exact setAt_other _ _ hj
        · intro q hq; exact setAt_keep _ _ hq
        · intro q hq; exact setAt_keep _ _ hq
        · intro q hq; exact setAt_new hq
        · intro q hq; exact setAt_new hq
        · simp
        · simp
      cases hmt : o.mtch with
      | none => exact ⟨none, plain, setAt_same _ _ _⟩
      | some j =>
        simp only
        by_cases hj : j = i
        · subst hj
          rw [if_neg (by rw [setAt_same]; exact hkn)]
          exact ⟨none, plain, setAt_same _ _ _⟩
        · rw [setAt_other _ _ hj]
          by_cases hkj : (s.ops j).kind = .none
          · rw [if_pos hkj]
            refine ⟨some j, ⟨rfl, hn, ?_, ?_, ?_, ?_, ?_, ?_, ?_, ?_, ?_, ?_, ?_, ?_, ?_⟩, ?_⟩ <;>
              (try simp only [setAt_other _ _ (Ne.symm hj), setAt_same])
            · exact hc
            · exact ha
            · exact hm
            · exact hplace
            · intro k hk'
              cases hk'
              exact ⟨hj, by rw [← hm, hmt], hkj, by rw [setAt_same]⟩
            · intro _; exact hout
            · intro k hki hkj'
              have : k ≠ j := fun e => hkj' (by rw [e])
              rw [setAt_other _ _ this, setAt_other _ _ hki]
            · intro q hq; exact setAt_keep _ _ hq
            · intro q hq; exact setAt_keep _ _ hq
            · intro q hq; exact setAt_new hq
            · intro q hq; exact setAt_new hq
            · simp
            · simp
          · rw [if_neg hkj]
            exact ⟨none, plain, setAt_same _ _ _⟩

/-- A step that gives no operand a register. -/
structure Still (s s' : St) (i : Nat) : Prop where
  cnt : s'.cnt = s.cnt
  inU : s'.inU = s.inU
  outU : s'.outU = s.outU
  none_ : (s.ops i).kind = .none
  consI : (s'.ops i).cons = (s.ops i).cons
  argI : (s'.ops i).arg = (s.ops i).arg
  regI : (s'.ops i).reg = 0
  kindI : (s'.ops i).kind ≠ .reg
  other : ∀ j, j ≠ i → s'.ops j = { s.ops j with mtch := (s'.ops j).mtch }

theorem Still.register {s s' : St} {i : Nat} (h : Still s s' i) :
    (placeOf (s'.ops i)).register = none := by
  unfold placeOf
  cases hk : (s'.ops i).kind <;> simp only [Where.register]
  · rw [if_pos h.regI]
  · exact absurd hk h.kindI

theorem Still.keep {s s' : St} {i : Nat} (h : Still s s' i) {j : Nat} (hj : j ≠ i) :
    placeOf (s'.ops j) = placeOf (s.ops j) := by
  have := h.other j hj
  exact placeOf_congr (by rw [this]) (by rw [this])

theorem Fresh.congr {o : Op} (h : Fresh o) (m : Option Nat) : Fresh { o with mtch := m } :=
  ⟨h.kind, h.reg, h.isMem, h.gp, h.fp, h.x87, h.early, h.high, h.legacy, h.free⟩

theorem Flags.congr {c : List Char} {o : Op} (h : Flags c o) (m : Option Nat) :
    Flags c { o with mtch := m } :=
  ⟨h.mem, h.gp, h.fp, h.x87, h.early, h.high, h.legacy, h.free⟩

theorem still_inv {cons : Nat → List Char} {arg : Nat → Arg} {cl : List Clob}
    {P P' : Nat → Prop} {s s' : St} {i : Nat}
    (h : Inv cons arg cl P s) (p : Still s s' i)
    (hP : ∀ j, P' j ↔ P j ∨ j = i) (hi : ¬ P i)
    (hfl : (s'.ops i).kind ≠ .flag → Flags (cons i) (s'.ops i))
    (hm : ∀ k j, (s'.ops k).mtch = some j → (s.ops k).mtch = some j ∨ (j = i ∧ TiedTo (cons i) k))
    (hfit : (s'.ops i).kind ≠ .none → (pl cons arg s').Fits i)
    (hun : (s'.ops i).kind = .none → ∀ r, ¬ Asks (cons i) (arg i) r) :
    Inv cons arg cl P' s' := by
  have hreg := p.register
  have nb : ¬ Before (cons i) (placeOf (s'.ops i)) ∧ ¬ After (cons i) (placeOf (s'.ops i)) := by
    constructor <;> intro hb <;> cases hw : placeOf (s'.ops i) <;> rw [hw] at hb hreg <;>
      first | exact hb | cases hreg
  have keep : ∀ k, (s.ops k).kind ≠ .none → placeOf (s'.ops k) = placeOf (s.ops k) := by
    intro k hk
    exact p.keep (fun e => hk (by rw [e]; exact p.none_))
  refine ⟨?_, ?_, ?_, ?_, ?_, ?_, ?_, ?_, ?_, ?_, ?_, ?_, ?_⟩
  · intro j
    by_cases hj : j = i
    · rw [hj, p.consI]; exact h.consEq _
    · rw [p.other j hj]; exact h.consEq j
  · intro j
    by_cases hj : j = i
    · rw [hj, p.argI]; exact h.argEq _
    · rw [p.other j hj]; exact h.argEq j
  · intro j hj
    have hj' : ¬ P j ∧ j ≠ i := by
      rw [hP] at hj
      exact ⟨fun x => hj (.inl x), fun x => hj (.inr x)⟩
    obtain ⟨hf, hmm⟩ := h.fresh j hj'.1
    refine ⟨by rw [p.other j hj'.2]; exact hf.congr _, fun k e => ?_⟩
    rcases hm k j e with e | e
    · exact hmm k e
    · exact hj'.2 e.1
  · intro j hj hk
    by_cases e : j = i
    · subst e; exact hfl hk
    · rcases (hP j).mp hj with hj | hj
      · rw [p.other j e] at hk ⊢
        exact (h.flags j hj hk).congr _
      · exact absurd hj e
  · intro j hj hk
    by_cases e : j = i
    · subst e; exact hun hk
    · rcases (hP j).mp hj with hj | hj
      · rw [p.other j e] at hk
        exact h.unasked j hj hk
      · exact absurd hj e
  · intro j hk
    by_cases e : j = i
    · rw [e]; exact p.regI
    · rw [p.other j e] at hk ⊢
      exact h.zero j hk
  · intro k j hk
    rcases hm k j hk with e | ⟨rfl, e⟩
    · exact h.tied k j e
    · exact e
  · intro j hb
    by_cases e : j = i
    · subst e; exact absurd hb nb.1
    · rw [p.keep e] at hb
      rw [p.inU, p.other j e]
      exact h.before j hb
  · intro j hb
    by_cases e : j = i
    · subst e; exact absurd hb nb.2
    · rw [p.keep e] at hb
      rw [p.outU, p.other j e]
      exact h.after j hb
  · intro q hq
    rw [p.inU, p.outU]
    exact h.clob q hq
  · intro q hq
    rw [p.inU, p.outU] at hq
    rcases h.known q hq with hc | ⟨j, hj⟩
    · exact .inl hc
    · exact .inr ⟨j, by rw [keep j (register_kind hj)]; exact hj⟩
  · intro j hk
    by_cases e : j = i
    · subst e; exact hfit hk
    · rw [p.other j e] at hk
      exact fits_mono keep hk (h.fits j hk)
  · intro j q q' hq ha
    by_cases e : j = i
    · subst e; rw [hreg] at hq; cases hq
    · rw [p.keep e] at hq
      exact h.exact j q q' hq ha

theorem still_explicit {cons : Nat → List Char} {arg : Nat → Arg} {s s' : St} {i : Nat}
    (p : Still s s' i) (he : AllExplicit cons arg s) : AllExplicit cons arg s' := by
  intro j q hq
  by_cases e : j = i
  · subst e; rw [p.register] at hq; cases hq
  · rw [p.keep e] at hq
    exact he j q hq

end Slimcc.AsmL
