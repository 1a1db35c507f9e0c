/-
Arguments go where the ABI says.
-/
import Verif.Lemmas.CallClass
set_option autoImplicit false

namespace Slimcc.CCL
open Slimcc.CC Slimcc.SysV

/-- The code's counters and the ABI's. -/
structure Rel (c : Cnt) (u : Used) : Prop where
  int : u.int = min c.gp 6
  sse : u.sse = min c.fp 8
  stack : u.stack = c.stack
  dvd : 8 ∣ c.stack

theorem roundUp_dvd (n a : Nat) : a ∣ roundUp n a := ⟨(n + a - 1) / a, Nat.mul_comm ..⟩

theorem roundUp_self {n a : Nat} (ha : 0 < a) (h : a ∣ n) : roundUp n a = n := by
  obtain ⟨k, rfl⟩ := h
  unfold roundUp
  rw [Nat.add_sub_assoc ha, Nat.add_comm (a * k), Nat.add_mul_div_left _ _ ha,
    Nat.div_eq_of_lt (by omega)]
  simp [Nat.mul_comm]

theorem toStack_step {t : CTy} {c : Cnt} {u : Used} (hr : Regular t) (h : Rel c u) :
    toStack c t = (.onStack (roundUp u.stack (max 8 t.align)), (toStack c t).2) ∧
    Rel (toStack c t).2
      { u with stack := roundUp u.stack (max 8 t.align) + roundUp t.size 8 } ∧
    (toStack c t).2.gp = c.gp ∧ (toStack c t).2.fp = c.fp := by
  have hst := h.stack
  have key : (if t.align > 8 then alignTo c.stack t.align else c.stack) =
      roundUp u.stack (max 8 t.align) := by
    split
    · rename_i ha
      rw [hst, Nat.max_eq_right (by omega)]
      rfl
    · rename_i ha
      rw [hst, Nat.max_eq_left (by omega), roundUp_self (by omega) h.dvd]
  have hd : 8 ∣ roundUp u.stack (max 8 t.align) := by
    rcases hr.align with ha | ha
    · rw [Nat.max_eq_left ha]; exact roundUp_dvd _ _
    · by_cases hb : t.align ≤ 8
      · rw [Nat.max_eq_left hb]; exact roundUp_dvd _ _
      · rw [Nat.max_eq_right (by omega)]
        exact Nat.dvd_trans ha (roundUp_dvd _ _)
  unfold toStack
  split at key
  · rename_i ha
    rw [if_pos ha]
    simp only [key]
    refine ⟨trivial, ⟨h.int, h.sse, rfl, ?_⟩, trivial, trivial⟩
    exact Nat.dvd_add hd (roundUp_dvd _ _)
  · rename_i ha
    rw [if_neg ha]
    simp only [key]
    refine ⟨trivial, ⟨h.int, h.sse, rfl, ?_⟩, trivial, trivial⟩
    exact Nat.dvd_add hd (roundUp_dvd _ _)

/-- What an argument's step establishes. -/
def StepOk (t : CTy) (c : Cnt) (u : Used) : Prop :=
  ∃ u', Rel (convStep c t).2 u' ∧
    (((convStep c t).1 = .inRegs ∧ Step t u (.regs (placeRegArg t u.int u.sse).1) u' ∧
        (placeRegArg t u.int u.sse).2 = (u'.int, u'.sse)) ∨
      ∃ o, (convStep c t).1 = .onStack o ∧ Step t u (.stack o) u' ∧
        u'.int = u.int ∧ u'.sse = u.sse)

theorem stackOk {t : CTy} {c c' : Cnt} {u : Used} (hr : Regular t) (h : Rel c' u)
    (e : convStep c t = toStack c' t)
    (hs : InMemory t ∨ 6 < u.int + (eightbytes t).count .integer ∨
      8 < u.sse + (eightbytes t).count .sse) : StepOk t c u := by
  obtain ⟨h1, h2, -⟩ := toStack_step hr h
  refine ⟨_, by rw [e]; exact h2, .inr ⟨_, by rw [e, h1], .stack hs, rfl, rfl⟩⟩

theorem regsOk {t : CTy} {c c' : Cnt} {u : Used} (e : convStep c t = (.inRegs, c'))
    (nm : ¬ InMemory t) (hi : u.int + (eightbytes t).count .integer ≤ 6)
    (hs : u.sse + (eightbytes t).count .sse ≤ 8)
    (hp : placeRegArg t u.int u.sse = (give (eightbytes t) u.int u.sse,
      u.int + (eightbytes t).count .integer, u.sse + (eightbytes t).count .sse))
    (hrel : Rel c' { u with int := u.int + (eightbytes t).count .integer,
                            sse := u.sse + (eightbytes t).count .sse }) : StepOk t c u := by
  refine ⟨_, by rw [e]; exact hrel, .inl ⟨by rw [e], ?_, by rw [hp]⟩⟩
  rw [hp]
  exact .regs nm hi hs

theorem eightbytes_one {t : CTy} (h0 : 0 < t.size) (h8 : t.size ≤ 8) :
    eightbytes t = [classOf t 0] := by
  unfold eightbytes
  have : (t.size + 7) / 8 = 1 := by omega
  rw [this]
  rfl

theorem eightbytes_two {t : CTy} (h8 : 8 < t.size) (h16 : t.size ≤ 16) :
    eightbytes t = [classOf t 0, classOf t 1] := by
  unfold eightbytes
  have : (t.size + 7) / 8 = 2 := by omega
  rw [this]
  rfl

theorem step_scalar {k : SK} {a : Nat} {c : Cnt} {u : Used} (hr : Regular (.scalar k a))
    (h : Rel c u) : StepOk (.scalar k a) c u := by
  have hint : u.int = min c.gp 6 := h.int
  have hsse : u.sse = min c.fp 8 := h.sse
  have hk : ∀ n, k = .int n → n = 1 ∨ n = 2 ∨ n = 4 ∨ n = 8 := by
    rcases hr.kind with ⟨k', a', e, hk⟩ | ⟨_, _, _, _, e⟩
    · cases e; exact hk
    · cases e
  have hpos : 0 < k.size := hr.pos
  have inMem : InMemory (.scalar k a) ↔ k = .ldouble := by
    unfold InMemory
    simp only [leaves, CTy.size, List.mem_singleton, exists_eq_left, Nat.zero_mod]
    constructor
    · rintro (h | h | h)
      · cases k <;> simp [SK.size] at h
        have := hk _ rfl
        omega
      · exact absurd rfl h
      · exact h
    · exact fun h => .inr (.inr h)
  have cls : k ≠ .ldouble → classOf (.scalar k a) 0 = scalarClass k := by
    intro hne
    unfold classOf
    have hin : inEightbyte 0 (0, k) = true := by
      simp [inEightbyte]; exact hpos
    simp only [leaves, List.filter_cons, hin, if_true, List.filter_nil, List.map_cons, List.map_nil]
    cases k <;> simp [scalarClass] at hne ⊢
  have one : k ≠ .ldouble → eightbytes (.scalar k a) = [scalarClass k] := by
    intro hne
    have h8 : k.size ≤ 8 := by
      cases k with
      | int n => have := hk n rfl; simp only [SK.size]; omega
      | ldouble => exact absurd rfl hne
      | _ => simp [SK.size]
    rw [eightbytes_one (t := .scalar k a) hpos h8, cls hne]
  cases k with
  | ldouble =>
    exact stackOk hr h rfl (.inl (inMem.mpr rfl))
  | int n =>
    have hone := one (by simp)
    by_cases hg : c.gp < gpMax
    · have e : convStep c (.scalar (.int n) a) = (.inRegs, { c with gp := c.gp + 1 }) := by
        simp only [convStep, if_pos hg]
      have hg' : c.gp < 6 := hg
      refine regsOk e (by rw [inMem]; simp) (by rw [hone, hint]; simp [scalarClass]; omega)
        (by rw [hone, hsse]; simp [scalarClass]; omega) (by rw [hone]; simp [placeRegArg, scalarClass, give]) ?_
      rw [hone]
      refine ⟨?_, ?_, h.stack, h.dvd⟩
      · simp only [scalarClass, hint]; simp; omega
      · simp only [scalarClass, hsse]; simp
    · have e : convStep c (.scalar (.int n) a) = toStack { c with gp := c.gp + 1 }
          (.scalar (.int n) a) := by
        simp only [convStep, if_neg hg]
      have hg' : 6 ≤ c.gp := Nat.not_lt.mp hg
      refine stackOk hr (c' := { c with gp := c.gp + 1 }) ⟨?_, h.sse, h.stack, h.dvd⟩ e (.inr (.inl ?_))
      · show u.int = min (c.gp + 1) 6
        rw [hint]; omega
      · rw [hone, hint]; simp [scalarClass]; omega
  | float =>
    have hone := one (by simp)
    by_cases hg : c.fp < fpMax
    · have e : convStep c (.scalar .float a) = (.inRegs, { c with fp := c.fp + 1 }) := by
        simp only [convStep, if_pos hg]
      have hg' : c.fp < 8 := hg
      refine regsOk e (by rw [inMem]; simp) (by rw [hone, hint]; simp [scalarClass]; omega)
        (by rw [hone, hsse]; simp [scalarClass]; omega) (by rw [hone]; simp [placeRegArg, scalarClass, give]) ?_
      rw [hone]
      refine ⟨?_, ?_, h.stack, h.dvd⟩
      · simp only [scalarClass, hint]; simp
      · simp only [scalarClass, hsse]; simp; omega
    · have e : convStep c (.scalar .float a) = toStack { c with fp := c.fp + 1 }
          (.scalar .float a) := by
        simp only [convStep, if_neg hg]
      have hg' : 8 ≤ c.fp := Nat.not_lt.mp hg
      refine stackOk hr (c' := { c with fp := c.fp + 1 }) ⟨h.int, ?_, h.stack, h.dvd⟩ e (.inr (.inr ?_))
      · show u.sse = min (c.fp + 1) 8
        rw [hsse]; omega
      · rw [hone, hsse]; simp [scalarClass]; omega
  | double =>
    have hone := one (by simp)
    by_cases hg : c.fp < fpMax
    · have e : convStep c (.scalar .double a) = (.inRegs, { c with fp := c.fp + 1 }) := by
        simp only [convStep, if_pos hg]
      have hg' : c.fp < 8 := hg
      refine regsOk e (by rw [inMem]; simp) (by rw [hone, hint]; simp [scalarClass]; omega)
        (by rw [hone, hsse]; simp [scalarClass]; omega) (by rw [hone]; simp [placeRegArg, scalarClass, give]) ?_
      rw [hone]
      refine ⟨?_, ?_, h.stack, h.dvd⟩
      · simp only [scalarClass, hint]; simp
      · simp only [scalarClass, hsse]; simp; omega
    · have e : convStep c (.scalar .double a) = toStack { c with fp := c.fp + 1 }
          (.scalar .double a) := by
        simp only [convStep, if_neg hg]
      have hg' : 8 ≤ c.fp := Nat.not_lt.mp hg
      refine stackOk hr (c' := { c with fp := c.fp + 1 }) ⟨h.int, ?_, h.stack, h.dvd⟩ e (.inr (.inr ?_))
      · show u.sse = min (c.fp + 1) 8
        rw [hsse]; omega
      · rw [hone, hsse]; simp [scalarClass]; omega

/-- The eightbytes of an aggregate of at most 16 bytes, as the code counts and
places them. -/
theorem agg_eightbytes {un : Bool} {s a : Nat} {ms : Mems} (hr : Regular (.agg un s a ms))
    (hs : s ≤ 16) (i f : Nat) :
    gpInc (.agg un s a ms) = (eightbytes (.agg un s a ms)).count .integer ∧
    fpInc (.agg un s a ms) = (eightbytes (.agg un s a ms)).count .sse ∧
    placeRegArg (.agg un s a ms) i f = (give (eightbytes (.agg un s a ms)) i f,
      i + (eightbytes (.agg un s a ms)).count .integer,
      f + (eightbytes (.agg un s a ms)).count .sse) := by
  have hpos : 0 < s := hr.pos
  obtain ⟨hl, hn⟩ := hr.plain ⟨un, s, a, ms, rfl⟩ hs
  have c0 := class_flonum (e := 0) hr.wf (fun _ _ e => by cases e) (fun l h => (hl l h).2)
    (hn 0 hpos)
  have f1 : hasFlonum1 (.agg un s a ms) = hasFlonum (8 * 0) (8 * 0 + 8) (.agg un s a ms) 0 := rfl
  rw [← f1] at c0
  by_cases h8 : s ≤ 8
  · have e8 : eightbytes (.agg un s a ms) = [classOf (.agg un s a ms) 0] :=
      eightbytes_one (t := .agg un s a ms) hpos h8
    have hgt : ¬ 8 < (CTy.agg un s a ms).size := by simp only [CTy.size]; omega
    unfold gpInc fpInc placeRegArg
    rw [e8]
    cases hf : hasFlonum1 (.agg un s a ms) with
    | true =>
      rw [hf] at c0
      rw [c0.1 rfl]
      simp [hgt, b2n, give]
    | false =>
      rw [hf] at c0
      rw [c0.2 rfl]
      simp [hgt, b2n, give]
  · have e8 : eightbytes (.agg un s a ms) =
        [classOf (.agg un s a ms) 0, classOf (.agg un s a ms) 1] :=
      eightbytes_two (t := .agg un s a ms) (Nat.not_le.mp h8) hs
    have hgt : 8 < (CTy.agg un s a ms).size := by simp only [CTy.size]; omega
    have c1 := class_flonum (e := 1) hr.wf (fun _ _ e => by cases e) (fun l h => (hl l h).2)
      (hn 1 (by simp only [CTy.size]; omega))
    have f2 : hasFlonum2 (.agg un s a ms) = hasFlonum (8 * 1) (8 * 1 + 8) (.agg un s a ms) 0 := rfl
    rw [← f2] at c1
    unfold gpInc fpInc placeRegArg
    rw [e8]
    cases hf : hasFlonum1 (.agg un s a ms) <;> cases hg : hasFlonum2 (.agg un s a ms) <;>
      rw [hf] at c0 <;> rw [hg] at c1
    · rw [c0.2 rfl, c1.2 rfl]; simp [hgt, b2n, give]
    · rw [c0.2 rfl, c1.1 rfl]; simp [hgt, b2n, give]
    · rw [c0.1 rfl, c1.2 rfl]; simp [hgt, b2n, give]
    · rw [c0.1 rfl, c1.1 rfl]; simp [hgt, b2n, give]

theorem step_agg {un : Bool} {s a : Nat} {ms : Mems} {c : Cnt} {u : Used}
    (hr : Regular (.agg un s a ms)) (h : Rel c u) : StepOk (.agg un s a ms) c u := by
  have hint : u.int = min c.gp 6 := h.int
  have hsse : u.sse = min c.fp 8 := h.sse
  by_cases hs : s ≤ 16
  · obtain ⟨g1, g2, g3⟩ := agg_eightbytes hr hs u.int u.sse
    have notMem : ¬ InMemory (.agg un s a ms) := by
      rintro (h | ⟨l, h1, h2⟩)
      · simp only [CTy.size] at h; omega
      · have := (hr.plain ⟨un, s, a, ms, rfl⟩ hs).1 l h1
        rcases h2 with h2 | h2
        · exact h2 this.1
        · exact this.2 h2
    by_cases hfit : (fpInc (.agg un s a ms) = 0 ∨ c.fp + fpInc (.agg un s a ms) ≤ fpMax) ∧
        (gpInc (.agg un s a ms) = 0 ∨ c.gp + gpInc (.agg un s a ms) ≤ gpMax)
    · have e : convStep c (.agg un s a ms) = (.inRegs,
          { c with fp := c.fp + fpInc (.agg un s a ms), gp := c.gp + gpInc (.agg un s a ms) }) := by
        have : (CTy.agg un s a ms).size ≤ 16 := hs
        simp only [convStep, if_pos this, if_pos hfit]
      rw [g1, g2] at hfit
      simp only [fpMax, gpMax] at hfit
      refine regsOk e notMem (by rw [hint]; omega) (by rw [hsse]; omega) g3 ?_
      refine ⟨?_, ?_, h.stack, h.dvd⟩
      · simp only [g1, hint]; omega
      · simp only [g2, hsse]; omega
    · have e : convStep c (.agg un s a ms) = toStack c (.agg un s a ms) := by
        have : (CTy.agg un s a ms).size ≤ 16 := hs
        simp only [convStep, if_pos this, if_neg hfit]
      refine stackOk hr h e (.inr ?_)
      rw [g1, g2] at hfit
      simp only [fpMax, gpMax] at hfit
      rw [hint, hsse]
      omega
  · have e : convStep c (.agg un s a ms) = toStack c (.agg un s a ms) := by
      have : ¬ (CTy.agg un s a ms).size ≤ 16 := hs
      simp only [convStep, if_neg this]
    exact stackOk hr h e (.inl (.inl (by simp only [CTy.size]; omega)))

theorem step_ok {t : CTy} {c : Cnt} {u : Used} (hr : Regular t) (h : Rel c u) :
    StepOk t c u := by
  rcases hr.kind with ⟨k, a, rfl, -⟩ | ⟨un, s, a, ms, rfl⟩
  · exact step_scalar hr h
  · exact step_agg hr h

/-- All arguments. -/
theorem conv_ok (ts : List CTy) : ∀ {c : Cnt} {u : Used}, (∀ t ∈ ts, Regular t) → Rel c u →
    ∃ u', Passed ts u (callerLocs ts (conv ts c).1 u.int u.sse) u' ∧ Rel (conv ts c).2 u' := by
  induction ts with
  | nil => exact fun _ h => ⟨_, .nil _, h⟩
  | cons t ts ih =>
    intro c u hr h
    obtain ⟨u₁, hrel, hcase⟩ := step_ok (hr t (by simp)) h
    obtain ⟨u₂, hp, hrel₂⟩ := ih (fun t' ht' => hr t' (by simp [ht'])) hrel
    refine ⟨u₂, ?_, hrel₂⟩
    rw [conv]
    rcases hcase with ⟨e, hs, hn⟩ | ⟨o, e, hs, h1, h2⟩
    · have h1 : (placeRegArg t u.int u.sse).2.1 = u₁.int := by rw [hn]
      have h2 : (placeRegArg t u.int u.sse).2.2 = u₁.sse := by rw [hn]
      simp only [e, callerLocs]
      rw [h1, h2]
      exact .cons hs hp
    · simp only [e, callerLocs]
      rw [← h1, ← h2]
      exact .cons hs hp

end Slimcc.CCL
