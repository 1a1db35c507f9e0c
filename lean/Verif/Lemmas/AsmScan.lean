/-
What reading a constraint string finds out, in terms of its letters.
-/
import Verif.Spec.AsmRegs
set_option autoImplicit false

namespace Slimcc.AsmL
open Slimcc.Asm Slimcc.AsmSpec

/-- The parts of an operand that reading its constraint leaves alone. -/
structure SameBase (o o' : Op) : Prop where
  cons : o'.cons = o.cons
  arg : o'.arg = o.arg
  kind : o'.kind = o.kind
  mtch : o'.mtch = o.mtch
  reg : o'.reg = o.reg

/-- The flags say which letters occur. -/
structure Flags (c : List Char) (o : Op) : Prop where
  mem : o.isMem = true ↔ AllowsMemory c
  gp : o.gp = true ↔ ('r' ∈ c ∨ 'q' ∈ c ∨ 'g' ∈ c ∨ 'X' ∈ c)
  fp : o.fp = true ↔ ('x' ∈ c ∨ 'v' ∈ c ∨ 'X' ∈ c)
  x87 : o.x87 = true ↔ 'f' ∈ c
  early : o.early = true ↔ '&' ∈ c
  high : o.high = true ↔ 'Q' ∈ c
  legacy : o.legacy = true ↔ 'R' ∈ c
  free : o.free = true ↔ 'U' ∈ c

/-- The number read so far. -/
def Tie (pre : List Char) (idx : Option Nat) (inDigits : Bool) : Prop :=
  (∀ k, idx = some k → ∃ p ds post : List Char, pre = p ++ ds ++ post ∧ ds ≠ [] ∧
    (∀ d ∈ ds, d.isDigit) ∧ (∀ d ∈ post, ¬ d.isDigit) ∧
    (∀ d, p.getLast? = some d → ¬ d.isDigit) ∧ decimal ds = k ∧
    (inDigits = true → post = [])) ∧
  (inDigits = true → idx ≠ none) ∧
  (inDigits = false → ∀ d, pre.getLast? = some d → ¬ d.isDigit)

structure ScanOk (o₀ : Op) (pre : List Char) (sc : Scan) : Prop where
  base : SameBase o₀ sc.o
  flags : Flags pre sc.o
  num : sc.isNum = true → AllowsNumber pre
  sym : sc.isSym = true → 'i' ∈ pre
  regS : ∀ r, sc.reg = some r → ∃ x ∈ pre, letterReg x = some r
  regC : ∀ x ∈ pre, ∀ r, letterReg x = some r → sc.reg = some r
  tie : Tie pre sc.idx sc.inDigits

theorem letterReg_digit {c : Char} (h : c.isDigit = true) : letterReg c = none := by
  unfold letterReg
  split <;> first | rfl | (exfalso; revert h; decide)

theorem number_snoc {c : List Char} (h : AllowsNumber c) (x : Char) :
    AllowsNumber (c ++ [x]) := by
  obtain ⟨y, hy, hm⟩ := h
  exact ⟨y, by simp [hy], hm⟩

theorem tie_other {pre : List Char} {idx : Option Nat} {b : Bool} (h : Tie pre idx b)
    {c : Char} (hc : ¬ c.isDigit = true) : Tie (pre ++ [c]) idx false := by
  refine ⟨fun k hk => ?_, by simp, fun _ d hd => ?_⟩
  · obtain ⟨p, ds, post, rfl, h1, h2, h3, h4, h5, -⟩ := h.1 k hk
    refine ⟨p, ds, post ++ [c], by simp, h1, h2, fun d hd => ?_, h4, h5, by simp⟩
    rcases List.mem_append.mp hd with hd | hd
    · exact h3 d hd
    · rw [List.mem_singleton.mp hd]; exact hc
  · simp at hd
    rw [← hd]
    exact hc

theorem tie_digit {pre : List Char} {idx : Option Nat} {b : Bool} (h : Tie pre idx b)
    {c : Char} (hc : c.isDigit = true) :
    Tie (pre ++ [c])
      (some (if b then 10 * idx.getD 0 + (c.toNat - '0'.toNat) else c.toNat - '0'.toNat))
      true := by
  refine ⟨fun k hk => ?_, by simp, by simp⟩
  cases b with
  | false =>
    simp only [Bool.false_eq_true, if_false, Option.some.injEq] at hk
    refine ⟨pre, [c], [], by simp, by simp, by simpa using hc, by simp, h.2.2 rfl, ?_, by simp⟩
    rw [← hk]
    simp [decimal]
  | true =>
    have hi := h.2.1 rfl
    cases idx with
    | none => exact absurd rfl hi
    | some n =>
      simp only [if_true, Option.getD_some, Option.some.injEq] at hk
      obtain ⟨p, ds, post, rfl, h1, h2, h3, h4, h5, h6⟩ := h.1 n rfl
      obtain rfl := h6 rfl
      refine ⟨p, ds ++ [c], [], by simp, by simp, ?_, by simp, h4, ?_, by simp⟩
      · intro d hd
        rcases List.mem_append.mp hd with hd | hd
        · exact h2 d hd
        · rw [List.mem_singleton.mp hd]; exact hc
      · rw [← hk, ← h5]
        simp [decimal]

theorem flags_digit {pre : List Char} {o : Op} (h : Flags pre o) {c : Char}
    (hc : c.isDigit = true) : Flags (pre ++ [c]) o := by
  have key : ∀ x : Char, x.isDigit = false → (x ∈ pre ++ [c] ↔ x ∈ pre) := by
    intro x hx
    simp only [List.mem_append, List.mem_singleton, or_iff_left_iff_imp]
    rintro rfl
    rw [hx] at hc
    cases hc
  obtain ⟨h1, h2, h3, h4, h5, h6, h7, h8⟩ := h
  unfold AllowsMemory at h1
  constructor <;> simp only [AllowsMemory, key _ (by decide : Char.isDigit 'm' = false),
    key _ (by decide : Char.isDigit 'o' = false), key _ (by decide : Char.isDigit 'g' = false),
    key _ (by decide : Char.isDigit 'X' = false), key _ (by decide : Char.isDigit 'r' = false),
    key _ (by decide : Char.isDigit 'q' = false), key _ (by decide : Char.isDigit 'x' = false),
    key _ (by decide : Char.isDigit 'v' = false), key _ (by decide : Char.isDigit 'f' = false),
    key _ (by decide : Char.isDigit '&' = false), key _ (by decide : Char.isDigit 'Q' = false),
    key _ (by decide : Char.isDigit 'R' = false), key _ (by decide : Char.isDigit 'U' = false)] <;>
    assumption

theorem scan_digit {o₀ : Op} {pre : List Char} {sc sc' : Scan} {c : Char}
    (h : ScanOk o₀ pre sc) (hc : c.isDigit = true) (e : scanChar sc c = .ok sc') :
    ScanOk o₀ (pre ++ [c]) sc' := by
  unfold scanChar at e
  rw [if_pos hc] at e
  cases e
  have ht := tie_digit h.tie hc
  refine ⟨h.base, flags_digit h.flags hc, fun e => number_snoc (h.num e) c, fun e => ?_, fun r e => ?_,
    fun x hx r hr => ?_, ?_⟩
  · simp [h.sym e]
  · obtain ⟨x, hx, hr⟩ := h.regS r e
    exact ⟨x, by simp [hx], hr⟩
  · rcases List.mem_append.mp hx with hx | hx
    · exact h.regC x hx r hr
    · rw [List.mem_singleton.mp hx, letterReg_digit hc] at hr
      cases hr
  · exact ht

/-- A letter for one register. -/
theorem scan_fixed {o₀ : Op} {pre : List Char} {sc sc' : Scan} {c : Char} {r : Reg}
    (h : ScanOk o₀ pre sc) (hc : ¬ c.isDigit = true) (hr : letterReg c = some r)
    (hf : Flags (pre ++ [c]) sc.o)
    (e : fixedReg { sc with inDigits := false } r = .ok sc') :
    ScanOk o₀ (pre ++ [c]) sc' := by
  have ht := tie_other h.tie hc
  have hs : sc' = { sc with inDigits := false, reg := some r } ∧
      (sc.reg = none ∨ sc.reg = some r) := by
    unfold fixedReg at e
    cases hx : sc.reg with
    | none =>
      simp only [hx] at e
      cases e
      exact ⟨rfl, .inl rfl⟩
    | some q =>
      simp only [hx] at e
      split at e
      · cases e
      · rename_i hne
        cases e
        have : q = r := Decidable.byContradiction hne
        exact ⟨rfl, .inr (by rw [this])⟩
  obtain ⟨rfl, hor⟩ := hs
  refine ⟨h.base, hf, fun e => number_snoc (h.num e) c, fun e => ?_, fun q e => ?_,
    fun x hx q hq => ?_, ht⟩
  · simp [h.sym e]
  · cases e
    exact ⟨c, by simp, hr⟩
  · rcases List.mem_append.mp hx with hx | hx
    · have := h.regC x hx q hq
      rcases hor with hn | hn
      · rw [hn] at this; cases this
      · rw [hn] at this; exact this
    · rw [List.mem_singleton.mp hx, hr] at hq
      exact hq

/-- Any other letter: registers and the tie stay. -/
theorem scan_other {o₀ : Op} {pre : List Char} {sc : Scan} {c : Char} {o' : Op} {n s : Bool}
    (h : ScanOk o₀ pre sc) (hc : ¬ c.isDigit = true) (hr : letterReg c = none)
    (hb : SameBase sc.o o') (hf : Flags (pre ++ [c]) o')
    (hn : n = true → sc.isNum = true ∨ c ∈ ['n', 'I', 'J', 'K', 'L', 'M', 'N', 'O', 'P', 'i', 'g', 'X'])
    (hs : s = true → sc.isSym = true ∨ c = 'i') :
    ScanOk o₀ (pre ++ [c])
      { o := o', reg := sc.reg, idx := sc.idx, isNum := n, isSym := s, inDigits := false } := by
  have ht := tie_other h.tie hc
  have hb' := h.base
  refine ⟨⟨?_, ?_, ?_, ?_, ?_⟩, hf, fun e => ?_, fun e => ?_, fun q e => ?_,
    fun x hx q hq => ?_, ht⟩
  · rw [hb.cons, hb'.cons]
  · rw [hb.arg, hb'.arg]
  · rw [hb.kind, hb'.kind]
  · rw [hb.mtch, hb'.mtch]
  · rw [hb.reg, hb'.reg]
  · rcases hn e with e | e
    · exact number_snoc (h.num e) c
    · exact ⟨c, by simp, e⟩
  · rcases hs e with e | e
    · simp [h.sym e]
    · simp [e]
  · obtain ⟨x, hx, hr⟩ := h.regS q e
    exact ⟨x, by simp [hx], hr⟩
  · rcases List.mem_append.mp hx with hx | hx
    · exact h.regC x hx q hq
    · rw [List.mem_singleton.mp hx, hr] at hq
      cases hq

theorem scan_char {o₀ : Op} {pre : List Char} {sc sc' : Scan} {c : Char}
    (h : ScanOk o₀ pre sc) (e : scanChar sc c = .ok sc') : ScanOk o₀ (pre ++ [c]) sc' := by
  by_cases hc : c.isDigit = true
  · exact scan_digit h hc e
  · unfold scanChar at e
    rw [if_neg hc] at e
    have hf := h.flags
    simp only at e
    split at e
    all_goals first
      | (cases e
         refine scan_other h hc rfl ⟨rfl, rfl, rfl, rfl, rfl⟩ ?_ ?_ ?_
         · obtain ⟨h1, h2, h3, h4, h5, h6, h7, h8⟩ := hf
           unfold AllowsMemory at h1
           constructor <;> simp_all [AllowsMemory]
         · intro hh
           first | exact .inl hh | exact .inr (by decide)
         · intro hh
           first | exact .inl hh | exact .inr rfl)
      | (refine scan_fixed h hc rfl ?_ e
         obtain ⟨h1, h2, h3, h4, h5, h6, h7, h8⟩ := hf
         unfold AllowsMemory at h1
         constructor <;> simp_all [AllowsMemory])
      | cases e

theorem scan_all {o₀ : Op} (cs : List Char) :
    ∀ {pre : List Char} {sc sc' : Scan}, ScanOk o₀ pre sc → scanAll cs sc = .ok sc' →
      ScanOk o₀ (pre ++ cs) sc' := by
  induction cs with
  | nil =>
    intro pre sc sc' h e
    cases e
    simpa using h
  | cons c cs ih =>
    intro pre sc sc' h e
    rw [scanAll] at e
    cases hx : scanChar sc c with
    | error x => rw [hx] at e; cases e
    | ok sc₁ =>
      rw [hx] at e
      have := ih (scan_char h hx) e
      simpa using this

/-- A fresh operand. -/
structure Fresh (o : Op) : Prop where
  kind : o.kind = .none
  reg : o.reg = 0
  isMem : o.isMem = false
  gp : o.gp = false
  fp : o.fp = false
  x87 : o.x87 = false
  early : o.early = false
  high : o.high = false
  legacy : o.legacy = false
  free : o.free = false

theorem scan_start {o : Op} (h : Fresh o) : ScanOk o [] { o := o } := by
  obtain ⟨_, _, h1, h2, h3, h4, h5, h6, h7, h8⟩ := h
  refine ⟨⟨rfl, rfl, rfl, rfl, rfl⟩, ?_, by simp, by simp, by simp, by simp, ?_⟩
  · constructor <;> simp_all [AllowsMemory]
  · exact ⟨by simp, by simp, by simp⟩

theorem scan_ok {o : Op} {sc : Scan} (h : Fresh o) (e : scanAll o.cons { o := o } = .ok sc) :
    ScanOk o o.cons sc := by
  have := scan_all o.cons (scan_start h) e
  simpa using this

theorem Tie.tiedTo {c : List Char} {k : Nat} {b : Bool} (h : Tie c (some k) b) : TiedTo c k := by
  obtain ⟨p, ds, post, h0, h1, h2, h3, h4, h5, -⟩ := h.1 k rfl
  exact ⟨p, ds, post, h0, h1, h2, h3, h4, h5⟩

end Slimcc.AsmL
