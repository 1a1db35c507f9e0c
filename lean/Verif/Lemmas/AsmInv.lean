/-
The invariant of register assignment, and the steps that keep it.
-/
import Verif.Lemmas.AsmScan
set_option autoImplicit false

namespace Slimcc.AsmL
open Slimcc.Asm Slimcc.AsmSpec

/-- The place an operand has. -/
def placeOf (o : Op) : Where :=
  match o.kind with
  | .none => .nowhere
  | .num => .number
  | .sym => .symbol
  | .flag => .flag
  | .mem => if o.reg = 0 then .memory else .memoryAt o.reg
  | .reg => .inReg o.reg

theorem placeOf_congr {o o' : Op} (hk : o'.kind = o.kind) (hr : o'.reg = o.reg) :
    placeOf o' = placeOf o := by
  unfold placeOf
  rw [hk, hr]

/-- The operands of a state, with what is known of them from the start. -/
def pl (cons : Nat → List Char) (arg : Nat → Arg) (s : St) : Placed :=
  { count := s.cnt, cons := cons, arg := arg, at_ := fun i => placeOf (s.ops i) }

theorem register_reg {o : Op} {r : Reg} (h : (placeOf o).register = some r) : o.reg = r := by
  unfold placeOf at h
  cases hk : o.kind <;> rw [hk] at h <;> simp only at h
  case mem =>
    split at h
    · cases h
    · simpa [Where.register] using h
  case reg => simpa [Where.register] using h
  all_goals cases h

theorem register_kind {o : Op} {r : Reg} (h : (placeOf o).register = some r) :
    o.kind ≠ .none := by
  intro hk
  unfold placeOf at h
  rw [hk] at h
  cases h

/-- An operand with a register holds it before, after, or both. -/
theorem before_or_after (c : List Char) {w : Where} {r : Reg} (h : w.register = some r) :
    Before c w ∨ After c w := by
  cases w with
  | inReg q =>
    by_cases ho : IsOutput c
    · exact .inr ho
    · exact .inl (.inl ho)
  | memoryAt q => exact .inl trivial
  | _ => cases h

structure Inv (cons : Nat → List Char) (arg : Nat → Arg) (cl : List Clob) (P : Nat → Prop)
    (s : St) : Prop where
  consEq : ∀ i, (s.ops i).cons = cons i
  argEq : ∀ i, (s.ops i).arg = arg i
  fresh : ∀ i, ¬ P i → Fresh (s.ops i) ∧ ∀ k, (s.ops k).mtch ≠ some i
  flags : ∀ i, P i → (s.ops i).kind ≠ .flag → Flags (cons i) (s.ops i)
  unasked : ∀ i, P i → (s.ops i).kind = .none → ∀ r, ¬ Asks (cons i) (arg i) r
  zero : ∀ i, (s.ops i).kind = .none → (s.ops i).reg = 0
  tied : ∀ k i, (s.ops k).mtch = some i → TiedTo (cons i) k
  before : ∀ i, Before (cons i) (placeOf (s.ops i)) → s.inU (s.ops i).reg = true
  after : ∀ i, After (cons i) (placeOf (s.ops i)) → s.outU (s.ops i).reg = true
  clob : ∀ r, Clobbered cl r → s.inU r = true ∧ s.outU r = true
  known : ∀ r, s.inU r = true ∨ s.outU r = true →
    Clobbered cl r ∨ ∃ i, (placeOf (s.ops i)).register = some r
  fits : ∀ i, (s.ops i).kind ≠ .none → (pl cons arg s).Fits i
  exact : ∀ i r r', (placeOf (s.ops i)).register = some r → Asks (cons i) (arg i) r' → r' = r

/-- While constraints are read, registers are only given on request. -/
def AllExplicit (cons : Nat → List Char) (arg : Nat → Arg) (s : St) : Prop :=
  ∀ i r, (placeOf (s.ops i)).register = some r → (pl cons arg s).Explicit i

/-- The point of it all. -/
structure Distinct (cons : Nat → List Char) (arg : Nat → Arg) (cl : List Clob) (s : St) :
    Prop where
  pairs : ∀ i j r, i ≠ j → (placeOf (s.ops i)).register = some r →
    (placeOf (s.ops j)).register = some r →
    MustDiffer (cons i) (placeOf (s.ops i)) (cons j) (placeOf (s.ops j)) →
    TiedTo (cons i) j ∨ TiedTo (cons j) i ∨
      ((pl cons arg s).Explicit i ∧ (pl cons arg s).Explicit j)
  clobbers : ∀ i r, (placeOf (s.ops i)).register = some r → Clobbered cl r →
    (pl cons arg s).Explicit i

/-- Operand `i` is given register `r`, and with it the operand `t` tied to it. -/
structure Put (cons : Nat → List Char) (s s' : St) (i : Nat) (r : Reg) (t : Option Nat) :
    Prop where
  cnt : s'.cnt = s.cnt
  none_ : (s.ops i).kind = .none
  consI : (s'.ops i).cons = (s.ops i).cons
  argI : (s'.ops i).arg = (s.ops i).arg
  mtchI : (s'.ops i).mtch = (s.ops i).mtch
  place : placeOf (s'.ops i) = .inReg r ∨ placeOf (s'.ops i) = .memoryAt r
  opT : ∀ j, t = some j → j ≠ i ∧ (s.ops i).mtch = some j ∧ (s.ops j).kind = .none ∧
    s'.ops j = { s.ops j with kind := .reg, reg := r }
  isOut : t ≠ none → IsOutput (cons i)
  other : ∀ j, j ≠ i → t ≠ some j → s'.ops j = s.ops j
  inKeep : ∀ q, s.inU q = true → s'.inU q = true
  outKeep : ∀ q, s.outU q = true → s'.outU q = true
  inNew : ∀ q, s'.inU q = true → s.inU q = true ∨ q = r
  outNew : ∀ q, s'.outU q = true → s.outU q = true ∨ q = r
  inI : Before (cons i) (placeOf (s'.ops i)) ∨ t ≠ none → s'.inU r = true
  outI : After (cons i) (placeOf (s'.ops i)) ∨ t ≠ none → s'.outU r = true

theorem Put.register {cons : Nat → List Char} {s s' : St} {i : Nat} {r : Reg} {t : Option Nat}
    (h : Put cons s s' i r t) : (placeOf (s'.ops i)).register = some r := by
  rcases h.place with e | e <;> rw [e] <;> rfl

theorem Put.placeT {cons : Nat → List Char} {s s' : St} {i : Nat} {r : Reg} {t : Option Nat}
    (h : Put cons s s' i r t) {j : Nat} (hj : t = some j) : placeOf (s'.ops j) = .inReg r := by
  rw [(h.opT j hj).2.2.2]
  rfl

/-- Operands that had a place keep it. -/
theorem Put.keep {cons : Nat → List Char} {s s' : St} {i : Nat} {r : Reg} {t : Option Nat}
    (h : Put cons s s' i r t) {j : Nat} (hj : (s.ops j).kind ≠ .none) : s'.ops j = s.ops j := by
  refine h.other j ?_ ?_
  · rintro rfl
    exact hj h.none_
  · intro e
    exact hj (h.opT j e).2.2.1

/-- Cases for an operand after the step. -/
theorem Put.cases {cons : Nat → List Char} {s s' : St} {i : Nat} {r : Reg} {t : Option Nat}
    (h : Put cons s s' i r t) (j : Nat) : j = i ∨ t = some j ∨ s'.ops j = s.ops j := by
  by_cases h1 : j = i
  · exact .inl h1
  · by_cases h2 : t = some j
    · exact .inr (.inl h2)
    · exact .inr (.inr (h.other j h1 h2))

theorem fits_mono {cons : Nat → List Char} {arg : Nat → Arg} {s s' : St} {j : Nat}
    (hk : ∀ k, (s.ops k).kind ≠ .none → placeOf (s'.ops k) = placeOf (s.ops k))
    (hj : (s.ops j).kind ≠ .none) (h : (pl cons arg s).Fits j) : (pl cons arg s').Fits j := by
  unfold Placed.Fits at *
  simp only [pl] at *
  rw [hk j hj]
  cases hp : placeOf (s.ops j) <;> rw [hp] at h <;> simp only at h ⊢ <;> try exact h
  rcases h with h | h | ⟨k, h1, h2, h3⟩
  · exact .inl h
  · exact .inr (.inl h)
  · exact .inr (.inr ⟨k, h1, h2, by rw [hk k (register_kind h3)]; exact h3⟩)

theorem put_inv {cons : Nat → List Char} {arg : Nat → Arg} {cl : List Clob}
    {P P' : Nat → Prop} {s s' : St} {i : Nat} {r : Reg} {t : Option Nat}
    (h : Inv cons arg cl P s) (p : Put cons s s' i r t)
    (hP : ∀ j, P' j ↔ P j ∨ j = i)
    (hfl : Flags (cons i) (s'.ops i))
    (hfit : (placeOf (s'.ops i) = .inReg r ∧ (Asks (cons i) (arg i) r ∨ Allowed (cons i) r)) ∨
      (placeOf (s'.ops i) = .memoryAt r ∧ AllowsMemory (cons i) ∧ rAX ≤ r ∧ r ≤ rR15))
    (hex : ∀ r', Asks (cons i) (arg i) r' → r' = r) :
    Inv cons arg cl P' s' := by
  have hPt : ∀ j, t = some j → P j := by
    intro j hj
    refine Classical.byContradiction fun hn => ?_
    exact (h.fresh j hn).2 i (p.opT j hj).2.1
  have hkindI : (s'.ops i).kind ≠ .none := register_kind p.register
  have hmt : ∀ k, (s'.ops k).mtch = (s.ops k).mtch := by
    intro k
    rcases p.cases k with rfl | e | e
    · exact p.mtchI
    · rw [(p.opT k e).2.2.2]
    · rw [e]
  have keep : ∀ k, (s.ops k).kind ≠ .none → placeOf (s'.ops k) = placeOf (s.ops k) :=
    fun k hk => by rw [p.keep hk]
  refine ⟨?_, ?_, ?_, ?_, ?_, ?_, ?_, ?_, ?_, ?_, ?_, ?_, ?_⟩
  · intro j
    rcases p.cases j with rfl | e | e
    · rw [p.consI]; exact h.consEq _
    · rw [(p.opT j e).2.2.2]; exact h.consEq j
    · rw [e]; exact h.consEq j
  · intro j
    rcases p.cases j with rfl | e | e
    · rw [p.argI]; exact h.argEq _
    · rw [(p.opT j e).2.2.2]; exact h.argEq j
    · rw [e]; exact h.argEq j
  · intro j hj
    have hj' : ¬ P j ∧ j ≠ i := by
      rw [hP] at hj
      exact ⟨fun x => hj (.inl x), fun x => hj (.inr x)⟩
    obtain ⟨hf, hm⟩ := h.fresh j hj'.1
    refine ⟨?_, fun k => by rw [hmt]; exact hm k⟩
    rw [p.other j hj'.2 (fun e => hj'.1 (hPt j e))]
    exact hf
  · intro j hj hk
    rcases p.cases j with rfl | e | e
    · exact hfl
    · have := h.flags j (hPt j e) (by rw [(p.opT j e).2.2.1]; simp)
      rw [(p.opT j e).2.2.2]
      exact ⟨this.mem, this.gp, this.fp, this.x87, this.early, this.high, this.legacy, this.free⟩
    · rw [e] at hk ⊢
      rcases (hP j).mp hj with hj | rfl
      · exact h.flags j hj hk
      · exact absurd (by rw [e, p.none_]) hkindI
  · intro j hj hk
    rcases p.cases j with rfl | e | e
    · exact absurd hk hkindI
    · rw [(p.opT j e).2.2.2] at hk; cases hk
    · rw [e] at hk
      rcases (hP j).mp hj with hj | rfl
      · exact h.unasked j hj hk
      · exact absurd (by rw [e, p.none_]) hkindI
  · intro j hk
    rcases p.cases j with rfl | e | e
    · exact absurd hk hkindI
    · rw [(p.opT j e).2.2.2] at hk; cases hk
    · rw [e] at hk ⊢
      exact h.zero j hk
  · intro k j hk
    rw [hmt] at hk
    exact h.tied k j hk
  · intro j hb
    rcases p.cases j with rfl | e | e
    · rw [register_reg p.register]
      exact p.inI (.inl hb)
    · rw [(p.opT j e).2.2.2]
      exact p.inI (.inr (by rw [e]; simp))
    · rw [e] at hb ⊢
      exact p.inKeep _ (h.before j hb)
  · intro j hb
    rcases p.cases j with rfl | e | e
    · rw [register_reg p.register]
      exact p.outI (.inl hb)
    · rw [(p.opT j e).2.2.2]
      exact p.outI (.inr (by rw [e]; simp))
    · rw [e] at hb ⊢
      exact p.outKeep _ (h.after j hb)
  · intro q hq
    exact ⟨p.inKeep _ (h.clob q hq).1, p.outKeep _ (h.clob q hq).2⟩
  · intro q hq
    have : (s.inU q = true ∨ s.outU q = true) ∨ q = r := by
      rcases hq with hq | hq
      · rcases p.inNew q hq with h | h
        · exact .inl (.inl h)
        · exact .inr h
      · rcases p.outNew q hq with h | h
        · exact .inl (.inr h)
        · exact .inr h
    rcases this with hq | rfl
    · rcases h.known q hq with hc | ⟨j, hj⟩
      · exact .inl hc
      · exact .inr ⟨j, by rw [keep j (register_kind hj)]; exact hj⟩
    · exact .inr ⟨i, p.register⟩
  · intro j hk
    rcases p.cases j with rfl | e | e
    · unfold Placed.Fits
      simp only [pl]
      rcases hfit with ⟨e, hf⟩ | ⟨e, hf⟩
      · rw [e]
        rcases hf with hf | hf
        · exact .inl hf
        · exact .inr (.inl hf)
      · rw [e]
        exact hf
    · unfold Placed.Fits
      simp only [pl]
      rw [p.placeT e]
      refine .inr (.inr ⟨i, ?_, p.isOut (by rw [e]; simp), p.register⟩)
      exact h.tied i j (p.opT j e).2.1
    · rw [e] at hk
      exact fits_mono keep hk (h.fits j hk)
  · intro j q q' hq ha
    rcases p.cases j with rfl | e | e
    · rw [p.register] at hq
      cases hq
      exact hex q' ha
    · exact absurd ha (h.unasked j (hPt j e) (p.opT j e).2.2.1 q')
    · rw [e] at hq
      exact h.exact j q q' hq ha

theorem explicit_congr {cons : Nat → List Char} {arg : Nat → Arg} {s s' : St} {i : Nat} :
    (pl cons arg s).Explicit i ↔ (pl cons arg s').Explicit i := Iff.rfl

/-- A register given on request keeps everything explicit. -/
theorem put_explicit {cons : Nat → List Char} {arg : Nat → Arg} {cl : List Clob}
    {P : Nat → Prop} {s s' : St} {i : Nat} {r : Reg} {t : Option Nat}
    (h : Inv cons arg cl P s) (p : Put cons s s' i r t) (ha : Asks (cons i) (arg i) r)
    (he : AllExplicit cons arg s) : AllExplicit cons arg s' := by
  intro j q hq
  rcases p.cases j with rfl | e | e
  · exact .inl ⟨r, ha⟩
  · exact .inr ⟨i, r, h.tied i j (p.opT j e).2.1, ha⟩
  · rw [e] at hq
    exact he j q hq

theorem distinct_of_explicit {cons : Nat → List Char} {arg : Nat → Arg} {cl : List Clob}
    {s : St} (he : AllExplicit cons arg s) : Distinct cons arg cl s :=
  ⟨fun i j r _ hi hj _ => .inr (.inr ⟨he i r hi, he j r hj⟩), fun i r hi _ => he i r hi⟩

/-- A register that was free for the operand keeps operands apart. -/
theorem put_distinct {cons : Nat → List Char} {arg : Nat → Arg} {cl : List Clob}
    {P : Nat → Prop} {s s' : St} {i : Nat} {r : Reg} {t : Option Nat}
    (h : Inv cons arg cl P s) (p : Put cons s s' i r t)
    (hin : s.inU r = false) (hout : IsOutput (cons i) → s.outU r = false)
    (hd : Distinct cons arg cl s) : Distinct cons arg cl s' := by
  have noClob : ¬ Clobbered cl r := by
    intro hc
    have := (h.clob r hc).1
    rw [hin] at this
    cases this
  -- an operand that already had the register conflicts with neither `i` nor `t`
  have old : ∀ j, (placeOf (s.ops j)).register = some r →
      ¬ Before (cons j) (placeOf (s.ops j)) ∧ ¬ IsOutput (cons i) := by
    intro j hj
    have hr := register_reg hj
    constructor
    · intro hb
      have := h.before j hb
      rw [hr, hin] at this
      cases this
    · intro ho
      have ho := hout ho
      rcases before_or_after (cons j) hj with hb | hb
      · have := h.before j hb
        rw [hr, hin] at this
        cases this
      · have := h.after j hb
        rw [hr, ho] at this
        cases this
  have oldI : ∀ j, (placeOf (s.ops j)).register = some r →
      ¬ MustDiffer (cons i) (placeOf (s'.ops i)) (cons j) (placeOf (s.ops j)) := by
    intro j hj hm
    obtain ⟨h1, h2⟩ := old j hj
    rcases hm with ⟨_, hb⟩ | ⟨ha, _⟩
    · exact h1 hb
    · rcases p.place with e | e
      · rw [e] at ha; exact h2 ha
      · rw [e] at ha; exact ha
  have oldT : t ≠ none → ∀ j, (placeOf (s.ops j)).register ≠ some r := by
    intro ht j hj
    exact (old j hj).2 (p.isOut ht)
  have symm : ∀ {a b : List Char} {v w : Where}, MustDiffer a v b w → MustDiffer b w a v := by
    intro a b v w hm
    rcases hm with ⟨x, y⟩ | ⟨x, y⟩
    · exact .inl ⟨y, x⟩
    · exact .inr ⟨y, x⟩
  constructor
  · intro a b q hab ha hb hm
    rcases p.cases a with rfl | ea | ea
    · rw [p.register] at ha
      cases ha
      rcases p.cases b with rfl | eb | eb
      · exact absurd rfl hab
      · exact .inr (.inl (h.tied _ b (p.opT b eb).2.1))
      · rw [eb] at hb hm
        exact absurd hm (oldI b hb)
    · rw [p.placeT ea] at ha
      cases ha
      rcases p.cases b with rfl | eb | eb
      · exact .inl (h.tied _ a (p.opT a ea).2.1)
      · rw [ea] at eb; cases eb; exact absurd rfl hab
      · rw [eb] at hb
        exact absurd hb (oldT (by rw [ea]; simp) b)
    · rw [ea] at ha hm
      rcases p.cases b with rfl | eb | eb
      · rw [p.register] at hb
        cases hb
        exact absurd (symm hm) (oldI a ha)
      · rw [p.placeT eb] at hb
        cases hb
        exact absurd ha (oldT (by rw [eb]; simp) a)
      · rw [eb] at hb hm
        exact hd.pairs a b q hab ha hb hm
  · intro a q ha hq
    rcases p.cases a with rfl | ea | ea
    · rw [p.register] at ha; cases ha; exact absurd hq noClob
    · rw [p.placeT ea] at ha; cases ha; exact absurd hq noClob
    · rw [ea] at ha
      exact hd.clobbers a q ha hq

end Slimcc.AsmL
