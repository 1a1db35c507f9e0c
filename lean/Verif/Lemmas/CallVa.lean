/-
`va_arg` walks over the variadic arguments as the caller did.
-/
import Verif.Lemmas.CallSides
set_option autoImplicit false

namespace Slimcc.CCL
open Slimcc.CC Slimcc.SysV

/-- A type an argument can have. -/
def ArgTy (t : CTy) : Prop :=
  (∃ k a, t = .scalar k a ∧ ∀ n, k = .int n → n = 1 ∨ n = 2 ∨ n = 4 ∨ n = 8) ∨
    ∃ u s a ms, t = .agg u s a ms

/-- `va_list` and the counters of `calling_convention`; `sp` is the stack pointer
at the call. -/
structure VRel (sp : Nat) (c : Cnt) (v : VaList) : Prop where
  gp : v.gpOfs = min c.gp 6 * 8
  fp : v.fpOfs = min c.fp 8 * 16 + 48
  overflow : v.overflow = sp + c.stack

/-- The offset of a register in the save area. -/
def saveOfs : Reg → Nat
  | .gp n => 8 * n
  | .fp n => 48 + 16 * n

/-- What `va_arg` finds is what the caller put there. -/
def Finds (sp : Nat) : Loc → VaSrc → Prop
  | .regs rs, s => s = .save (rs.map saveOfs)
  | .stack o, s => s = .mem (sp + o)

theorem add_alignTo {sp n a : Nat} (ha : 0 < a) (h : a ∣ sp) :
    (sp + n + (a - 1)) / a * a = sp + alignTo n a := by
  obtain ⟨k, rfl⟩ := h
  unfold alignTo
  rw [show a * k + n + (a - 1) = (n + a - 1) + a * k by omega, Nat.add_mul_div_left _ _ ha,
    Nat.add_mul, Nat.mul_comm k a]
  omega

theorem va_stack {sp : Nat} {c : Cnt} {v : VaList} {t : CTy} (h : VRel sp c v)
    (hs : (convStep c t).1 = .onStack (placeAt c.stack t))
    (hgp : min (convStep c t).2.gp 6 = min c.gp 6) (hfp : min (convStep c t).2.fp 8 = min c.fp 8)
    (hst : (convStep c t).2.stack = placeAt c.stack t + alignTo t.size 8)
    (ha : t.align > 8 → t.align ∣ sp) :
    (vaOverflow t v).1 = .mem (sp + placeAt c.stack t) ∧
    VRel sp (convStep c t).2 (vaOverflow t v).2 := by
  unfold vaOverflow
  split
  · rename_i hle
    have hp : placeAt c.stack t = c.stack := by
      unfold placeAt; rw [if_neg (by omega)]
    rw [hp] at hst ⊢
    refine ⟨by simp only [h.overflow], ?_, ?_, ?_⟩
    · rw [hgp]; exact h.gp
    · rw [hfp]; exact h.fp
    · simp only [h.overflow, hst]; omega
  · rename_i hgt
    have hgt : t.align > 8 := by omega
    have hp : placeAt c.stack t = alignTo c.stack t.align := by
      unfold placeAt; rw [if_pos hgt]
    have e := add_alignTo (n := c.stack) (by omega) (ha hgt)
    rw [hp] at hst ⊢
    refine ⟨by simp only [h.overflow, e], ?_, ?_, ?_⟩
    · rw [hgp]; exact h.gp
    · rw [hfp]; exact h.fp
    · simp only [h.overflow, hst, e]; omega

/-- One argument. -/
theorem va_step {sp : Nat} {c : Cnt} {v : VaList} {t : CTy} (h : VRel sp c v) (hk : ArgTy t)
    (ha : (∃ o, (convStep c t).1 = .onStack o) → t.align > 8 → t.align ∣ sp) :
    Finds sp (match (convStep c t).1 with
      | .inRegs => .regs (placeRegArg t (min c.gp 6) (min c.fp 8)).1
      | .onStack o => .stack o) (vaArg t v).1 ∧
    VRel sp (convStep c t).2 (vaArg t v).2 := by
  -- it is enough to see that both choose the stack together, and the registers agree
  have stack : (∃ o, (convStep c t).1 = .onStack o) → vaArg t v = vaOverflow t v →
      Finds sp (match (convStep c t).1 with
        | .inRegs => .regs (placeRegArg t (min c.gp 6) (min c.fp 8)).1
        | .onStack o => .stack o) (vaArg t v).1 ∧
      VRel sp (convStep c t).2 (vaArg t v).2 := by
    intro hs hv
    rcases convStep_cases c t with ⟨e, -⟩ | ⟨e, h1, h2, h3, -⟩
    · obtain ⟨o, ho⟩ := hs
      rw [e] at ho
      cases ho
    · obtain ⟨k1, k2⟩ := va_stack h e h1 h2 h3 (ha hs)
      rw [hv]
      refine ⟨?_, k2⟩
      rw [e]
      exact k1
  have regs : ∀ (s : List Nat) (v' : VaList), (convStep c t).1 = .inRegs → vaArg t v = (.save s, v') →
      (placeRegArg t (min c.gp 6) (min c.fp 8)).1.map saveOfs = s →
      VRel sp (convStep c t).2 v' →
      Finds sp (match (convStep c t).1 with
        | .inRegs => .regs (placeRegArg t (min c.gp 6) (min c.fp 8)).1
        | .onStack o => .stack o) (vaArg t v).1 ∧
      VRel sp (convStep c t).2 (vaArg t v).2 := by
    intro s v' hs hv hr hrel
    rw [hs, hv]
    exact ⟨by show _ = _; rw [hr], hrel⟩
  have hgp := h.gp
  have hfp := h.fp
  have hov := h.overflow
  rcases hk with ⟨k, a, rfl, hk⟩ | ⟨un, s, a, ms, rfl⟩
  · cases k with
    | int n =>
      have hn := hk n rfl
      have hsz : (CTy.scalar (.int n) a).size = n := rfl
      have hv : vaArg (.scalar (.int n) a) v =
          if v.gpOfs > 40 then vaOverflow (.scalar (.int n) a) v
          else (.save [v.gpOfs], { v with gpOfs := v.gpOfs + 8 }) := by
        unfold vaArg vaNeedCopy hasFlonum1
        rw [hsz]
        have c1 : n ≤ 16 := by omega
        have c2 : ¬ n > 8 := by omega
        simp [c1, c2, hasFlonum, List.range_succ]
      by_cases hg : c.gp < gpMax
      · have e : convStep c (.scalar (.int n) a) = (.inRegs, { c with gp := c.gp + 1 }) := by
          simp only [convStep, if_pos hg]
        have hg : c.gp < 6 := hg
        rw [if_neg (by omega)] at hv
        refine regs _ _ (by rw [e]) hv ?_ ?_
        · simp only [placeRegArg, List.map_cons, List.map_nil, saveOfs]
          congr 1
          omega
        · rw [e]
          exact ⟨by simp only; omega, hfp, hov⟩
      · have e : convStep c (.scalar (.int n) a) = toStack { c with gp := c.gp + 1 }
            (.scalar (.int n) a) := by
          simp only [convStep, if_neg hg]
        have hg : 6 ≤ c.gp := Nat.not_lt.mp hg
        rw [if_pos (by omega)] at hv
        exact stack ⟨_, by rw [e]; exact (toStack_regs _ _).2.2.1⟩ hv
    | float =>
      have hv : vaArg (.scalar .float a) v =
          if v.fpOfs > 160 then vaOverflow (.scalar .float a) v
          else (.save [v.fpOfs], { v with fpOfs := v.fpOfs + 16 }) := by
        simp [vaArg, vaNeedCopy, hasFlonum1, hasFlonum, CTy.size, SK.size]
      by_cases hg : c.fp < fpMax
      · have e : convStep c (.scalar .float a) = (.inRegs, { c with fp := c.fp + 1 }) := by
          simp only [convStep, if_pos hg]
        have hg : c.fp < 8 := hg
        rw [if_neg (by omega)] at hv
        refine regs _ _ (by rw [e]) hv ?_ ?_
        · simp only [placeRegArg, List.map_cons, List.map_nil, saveOfs]
          congr 1
          omega
        · rw [e]
          exact ⟨hgp, by simp only; omega, hov⟩
      · have e : convStep c (.scalar .float a) = toStack { c with fp := c.fp + 1 }
            (.scalar .float a) := by
          simp only [convStep, if_neg hg]
        have hg : 8 ≤ c.fp := Nat.not_lt.mp hg
        rw [if_pos (by omega)] at hv
        exact stack ⟨_, by rw [e]; exact (toStack_regs _ _).2.2.1⟩ hv
    | double =>
      have hv : vaArg (.scalar .double a) v =
          if v.fpOfs > 160 then vaOverflow (.scalar .double a) v
          else (.save [v.fpOfs], { v with fpOfs := v.fpOfs + 16 }) := by
        simp [vaArg, vaNeedCopy, hasFlonum1, hasFlonum, CTy.size, SK.size]
      by_cases hg : c.fp < fpMax
      · have e : convStep c (.scalar .double a) = (.inRegs, { c with fp := c.fp + 1 }) := by
          simp only [convStep, if_pos hg]
        have hg : c.fp < 8 := hg
        rw [if_neg (by omega)] at hv
        refine regs _ _ (by rw [e]) hv ?_ ?_
        · simp only [placeRegArg, List.map_cons, List.map_nil, saveOfs]
          congr 1
          omega
        · rw [e]
          exact ⟨hgp, by simp only; omega, hov⟩
      · have e : convStep c (.scalar .double a) = toStack { c with fp := c.fp + 1 }
            (.scalar .double a) := by
          simp only [convStep, if_neg hg]
        have hg : 8 ≤ c.fp := Nat.not_lt.mp hg
        rw [if_pos (by omega)] at hv
        exact stack ⟨_, by rw [e]; exact (toStack_regs _ _).2.2.1⟩ hv
    | ldouble =>
      exact stack ⟨_, (toStack_regs c (.scalar .ldouble a)).2.2.1⟩ (by simp [vaArg])
  · generalize ht : CTy.agg un s a ms = t at *
    by_cases hs : t.size ≤ 16
    · have hconv : convStep c t =
          if (fpInc t = 0 ∨ c.fp + fpInc t ≤ fpMax) ∧ (gpInc t = 0 ∨ c.gp + gpInc t ≤ gpMax) then
            (.inRegs, { c with fp := c.fp + fpInc t, gp := c.gp + gpInc t })
          else toStack c t := by
        subst ht
        simp only [convStep, if_pos hs]
      have hplace : placeRegArg t (min c.gp 6) (min c.fp 8) =
          (let (r, gp, fp) := if hasFlonum1 t then (Reg.fp (min c.fp 8), min c.gp 6, min c.fp 8 + 1)
            else (Reg.gp (min c.gp 6), min c.gp 6 + 1, min c.fp 8)
          if t.size > 8 then
            if hasFlonum2 t then ([r, .fp fp], gp, fp + 1) else ([r, .gp gp], gp + 1, fp)
          else ([r], gp, fp)) := by
        subst ht; rfl
      have hva : vaArg t v =
          if vaNeedCopy t then
            let gpInc := b2n (!hasFlonum1 t) + b2n (!hasFlonum2 t)
            let fpInc := b2n (hasFlonum1 t) + b2n (hasFlonum2 t)
            if (gpInc ≠ 0 ∧ v.gpOfs > 48 - gpInc * 8) ∨ v.fpOfs > 176 - fpInc * 16 then vaOverflow t v
            else
              let (a, v) := vaPart (hasFlonum1 t) v
              let (b, v) := vaPart (hasFlonum2 t) v
              (.save [a, b], v)
          else if hasFlonum1 t then
            if v.fpOfs > 160 then vaOverflow t v
            else (.save [v.fpOfs], { v with fpOfs := v.fpOfs + 16 })
          else
            let gpInc := if t.size > 8 then 2 else 1
            if v.gpOfs > 48 - gpInc * 8 then vaOverflow t v
            else (.save ((List.range gpInc).map (fun i => v.gpOfs + 8 * i)),
              { v with gpOfs := v.gpOfs + gpInc * 8 }) := by
        subst ht
        simp [vaArg, hs]
      have hf := hconv
      by_cases hfit : (fpInc t = 0 ∨ c.fp + fpInc t ≤ fpMax) ∧
          (gpInc t = 0 ∨ c.gp + gpInc t ≤ gpMax)
      · rw [if_pos hfit] at hconv
        simp only [fpInc, gpInc, fpMax, gpMax] at hfit
        by_cases h8 : t.size > 8
        · cases f1 : hasFlonum1 t <;> cases f2 : hasFlonum2 t <;>
            simp [f1, f2, h8, b2n] at hfit <;>
            simp [vaNeedCopy, f1, f2, h8, hs, b2n, vaPart] at hva <;>
            simp [f1, f2, h8] at hplace
          · rw [if_neg (by omega)] at hva
            refine regs _ _ (by rw [hconv]) hva ?_ ?_
            · rw [hplace]
              simp [saveOfs, List.range_succ]
              omega
            · rw [hconv]
              refine ⟨?_, ?_, hov⟩ <;> simp [gpInc, fpInc, f1, f2, h8, b2n] <;> omega
          · rw [if_neg (by omega)] at hva
            refine regs _ _ (by rw [hconv]) hva ?_ ?_
            · rw [hplace]
              simp [saveOfs]
              omega
            · rw [hconv]
              refine ⟨?_, ?_, hov⟩ <;> simp [gpInc, fpInc, f1, f2, h8, b2n] <;> omega
          · rw [if_neg (by omega)] at hva
            refine regs _ _ (by rw [hconv]) hva ?_ ?_
            · rw [hplace]
              simp [saveOfs]
              omega
            · rw [hconv]
              refine ⟨?_, ?_, hov⟩ <;> simp [gpInc, fpInc, f1, f2, h8, b2n] <;> omega
          · rw [if_neg (by omega)] at hva
            refine regs _ _ (by rw [hconv]) hva ?_ ?_
            · rw [hplace]
              simp [saveOfs]
              omega
            · rw [hconv]
              refine ⟨?_, ?_, hov⟩ <;> simp [gpInc, fpInc, f1, f2, h8, b2n] <;> omega
        · cases f1 : hasFlonum1 t <;>
            simp [f1, h8, b2n] at hfit <;>
            simp [vaNeedCopy, f1, h8] at hva <;>
            simp [f1, h8] at hplace
          · rw [if_neg (by omega)] at hva
            refine regs _ _ (by rw [hconv]) hva ?_ ?_
            · rw [hplace]
              simp [saveOfs, List.range_succ]
              omega
            · rw [hconv]
              refine ⟨?_, ?_, hov⟩ <;> simp [gpInc, fpInc, f1, h8, b2n] <;> omega
          · rw [if_neg (by omega)] at hva
            refine regs _ _ (by rw [hconv]) hva ?_ ?_
            · rw [hplace]
              simp [saveOfs]
              omega
            · rw [hconv]
              refine ⟨?_, ?_, hov⟩ <;> simp [gpInc, fpInc, f1, h8, b2n] <;> omega
      · rw [if_neg hfit] at hconv
        refine stack ⟨_, by rw [hconv]; exact (toStack_regs _ _).2.2.1⟩ ?_
        simp only [fpInc, gpInc, fpMax, gpMax] at hfit
        rw [hva]
        by_cases h8 : t.size > 8
        · cases f1 : hasFlonum1 t <;> cases f2 : hasFlonum2 t <;>
            simp [f1, f2, h8, b2n] at hfit <;>
            simp [vaNeedCopy, f1, f2, h8, hs, b2n, vaPart] <;> omega
        · cases f1 : hasFlonum1 t <;>
            simp [f1, h8, b2n] at hfit <;>
            simp [vaNeedCopy, f1, h8] <;> omega
    · have e : convStep c t = toStack c t := by
        subst ht
        simp only [convStep, if_neg hs]
      refine stack ⟨_, by rw [e]; exact (toStack_regs _ _).2.2.1⟩ ?_
      unfold vaArg
      simp [hs]

/-- All variadic arguments. -/
theorem va_all (ts : List CTy) : ∀ {sp : Nat} {c : Cnt} {v : VaList}, VRel sp c v →
    (∀ t ∈ ts, ArgTy t) →
    (∀ (i o : Nat) (t : CTy), (walk ts c)[i]? = some (.stack o) → ts[i]? = some t →
      t.align > 8 → t.align ∣ sp) →
    (vaArgs ts v).length = ts.length ∧
    ∀ (i : Nat) (l : Loc), (walk ts c)[i]? = some l →
      ∃ s, (vaArgs ts v)[i]? = some s ∧ Finds sp l s := by
  induction ts with
  | nil => exact fun _ _ _ => ⟨rfl, by intro i l h; simp [walk] at h⟩
  | cons t ts ih =>
    intro sp c v h hk ha
    obtain ⟨h1, h2⟩ := va_step h (hk t (by simp)) (by
      rintro ⟨o, ho⟩ hh
      exact ha 0 o t (by simp [walk, ho]) (by simp) hh)
    obtain ⟨k1, k2⟩ := ih h2 (fun t' ht' => hk t' (by simp [ht']))
      (fun i o t' hw ht' hh => ha (i + 1) o t' (by simpa [walk] using hw) (by simpa using ht') hh)
    refine ⟨by simp [vaArgs, k1], ?_⟩
    intro i l hw
    cases i with
    | zero =>
      simp only [walk, List.getElem?_cons_zero, Option.some.injEq] at hw
      subst hw
      exact ⟨_, by simp [vaArgs], h1⟩
    | succ i =>
      simp only [walk, List.getElem?_cons_succ] at hw
      obtain ⟨s, e, hs⟩ := k2 i l hw
      exact ⟨s, by simpa [vaArgs] using e, hs⟩

end Slimcc.CCL
