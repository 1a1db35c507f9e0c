/-
Caller, callee and `va_arg` walk over the arguments in step.  Nothing here
depends on how a type is classified.
-/
import Verif.Lemmas.CallAssign
set_option autoImplicit false

namespace Slimcc.CCL
open Slimcc.CC Slimcc.SysV

/-- The registers in a list are those between the counters, each once. -/
structure Span (rs : List Reg) (g g' f f' : Nat) : Prop where
  nodup : rs.Nodup
  gp : ∀ n, Reg.gp n ∈ rs ↔ g ≤ n ∧ n < g'
  fp : ∀ n, Reg.fp n ∈ rs ↔ f ≤ n ∧ n < f'
  gle : g ≤ g'
  fle : f ≤ f'

theorem Span.nil (g f : Nat) : Span [] g g f f :=
  ⟨List.nodup_nil, by intro n; simp, by intro n; simp, Nat.le_refl _, Nat.le_refl _⟩

theorem Span.append {a b : List Reg} {g g' g'' f f' f'' : Nat} (h : Span a g g' f f')
    (k : Span b g' g'' f' f'') : Span (a ++ b) g g'' f f'' := by
  have h1 := h.gle
  have h2 := h.fle
  have h3 := k.gle
  have h4 := k.fle
  refine ⟨?_, ?_, ?_, by omega, by omega⟩
  · rw [List.nodup_append]
    refine ⟨h.nodup, k.nodup, ?_⟩
    rintro x hx y hy rfl
    cases x with
    | gp n =>
      have := (h.gp n).mp hx
      have := (k.gp n).mp hy
      omega
    | fp n =>
      have := (h.fp n).mp hx
      have := (k.fp n).mp hy
      omega
  · intro n; rw [List.mem_append, h.gp, k.gp]; omega
  · intro n; rw [List.mem_append, h.fp, k.fp]; omega

theorem Span.gp1 (g f : Nat) : Span [.gp g] g (g + 1) f f :=
  ⟨by simp, by intro n; simp <;> omega, by intro n; simp <;> omega, by omega, by omega⟩

theorem Span.fp1 (g f : Nat) : Span [.fp f] g g f (f + 1) :=
  ⟨by simp, by intro n; simp <;> omega, by intro n; simp <;> omega, by omega, by omega⟩

/-- `place_reg_arg` takes the next registers. -/
theorem place_span (t : CTy) (g f : Nat) :
    Span (placeRegArg t g f).1 g (placeRegArg t g f).2.1 f (placeRegArg t g f).2.2 := by
  unfold placeRegArg
  split
  · cases hasFlonum1 _ <;> simp only [Bool.false_eq_true, if_false, if_true] <;> split <;>
      (try (split)) <;> simp only
    · exact (Span.gp1 g f).append (Span.fp1 (g + 1) f)
    · exact (Span.gp1 g f).append (Span.gp1 (g + 1) f)
    · exact Span.gp1 g f
    · exact (Span.fp1 g f).append (Span.fp1 g (f + 1))
    · exact (Span.fp1 g f).append (Span.gp1 g (f + 1))
    · exact Span.fp1 g f
  · exact Span.fp1 g f
  · exact Span.fp1 g f
  · exact Span.gp1 g f

theorem place_counts_agg (un : Bool) (s a : Nat) (ms : Mems) (g f : Nat) :
    (placeRegArg (.agg un s a ms) g f).2 =
      (g + gpInc (.agg un s a ms), f + fpInc (.agg un s a ms)) := by
  unfold placeRegArg gpInc fpInc
  cases hasFlonum1 (.agg un s a ms) <;> cases hasFlonum2 (.agg un s a ms) <;>
    by_cases h : (CTy.agg un s a ms).size > 8 <;> simp [h, b2n]

/-- The last part of a step that goes to the stack leaves the registers alone. -/
theorem toStack_regs (c : Cnt) (t : CTy) :
    (toStack c t).2.gp = c.gp ∧ (toStack c t).2.fp = c.fp ∧
    (toStack c t).1 = .onStack (if t.align > 8 then alignTo c.stack t.align else c.stack) ∧
    (toStack c t).2.stack =
      (if t.align > 8 then alignTo c.stack t.align else c.stack) + alignTo t.size 8 ∧
    (toStack c t).2.maxAlign = (if t.align > 8 then max c.maxAlign t.align else c.maxAlign) := by
  unfold toStack
  by_cases h : t.align > 8
  · simp only [if_pos h]; simp
  · simp only [if_neg h]; simp

/-- The two outcomes of a step, and what they do to the counters. -/
theorem convStep_cases (c : Cnt) (t : CTy) :
    ((convStep c t).1 = .inRegs ∧
      (placeRegArg t (min c.gp 6) (min c.fp 8)).2 =
        (min (convStep c t).2.gp 6, min (convStep c t).2.fp 8) ∧
      (convStep c t).2.stack = c.stack ∧ (convStep c t).2.maxAlign = c.maxAlign) ∨
    ((convStep c t).1 = .onStack (if t.align > 8 then alignTo c.stack t.align else c.stack) ∧
      min (convStep c t).2.gp 6 = min c.gp 6 ∧ min (convStep c t).2.fp 8 = min c.fp 8 ∧
      (convStep c t).2.stack =
        (if t.align > 8 then alignTo c.stack t.align else c.stack) + alignTo t.size 8 ∧
      (convStep c t).2.maxAlign = (if t.align > 8 then max c.maxAlign t.align else c.maxAlign)) := by
  have ts := fun (c' : Cnt) => toStack_regs c' t
  unfold convStep
  split
  · rename_i un s a ms
    split
    · split
      · rename_i h
        simp only [fpMax, gpMax] at h
        refine .inl ⟨rfl, ?_, rfl, rfl⟩
        rw [place_counts_agg]
        simp only [Prod.mk.injEq]
        omega
      · obtain ⟨h1, h2, h3, h4, h5⟩ := ts c
        exact .inr ⟨h3, by rw [h1], by rw [h2], h4, h5⟩
    · obtain ⟨h1, h2, h3, h4, h5⟩ := ts c
      exact .inr ⟨h3, by rw [h1], by rw [h2], h4, h5⟩
  · split
    · rename_i h
      simp only [fpMax] at h
      have : min c.fp 8 + 1 = min (c.fp + 1) 8 := by omega
      exact .inl ⟨rfl, by simp [placeRegArg, this], rfl, rfl⟩
    · rename_i h
      simp only [fpMax] at h
      obtain ⟨h1, h2, h3, h4, h5⟩ := ts { c with fp := c.fp + 1 }
      refine .inr ⟨h3, by rw [h1], ?_, h4, h5⟩
      rw [h2]
      show min (c.fp + 1) 8 = _
      omega
  · split
    · rename_i h
      simp only [fpMax] at h
      have : min c.fp 8 + 1 = min (c.fp + 1) 8 := by omega
      exact .inl ⟨rfl, by simp [placeRegArg, this], rfl, rfl⟩
    · rename_i h
      simp only [fpMax] at h
      obtain ⟨h1, h2, h3, h4, h5⟩ := ts { c with fp := c.fp + 1 }
      refine .inr ⟨h3, by rw [h1], ?_, h4, h5⟩
      rw [h2]
      show min (c.fp + 1) 8 = _
      omega
  · obtain ⟨h1, h2, h3, h4, h5⟩ := ts c
    exact .inr ⟨h3, by rw [h1], by rw [h2], h4, h5⟩
  · split
    · rename_i h
      simp only [gpMax] at h
      have : min c.gp 6 + 1 = min (c.gp + 1) 6 := by omega
      exact .inl ⟨rfl, by simp [placeRegArg, this], rfl, rfl⟩
    · rename_i h
      simp only [gpMax] at h
      obtain ⟨h1, h2, h3, h4, h5⟩ := ts { c with gp := c.gp + 1 }
      refine .inr ⟨h3, ?_, by rw [h2], h4, h5⟩
      rw [h1]
      show min (c.gp + 1) 6 = _
      omega
  · split
    · rename_i h
      simp only [gpMax] at h
      have : min c.gp 6 + 1 = min (c.gp + 1) 6 := by omega
      exact .inl ⟨rfl, by simp [placeRegArg, this], rfl, rfl⟩
    · rename_i h
      simp only [gpMax] at h
      obtain ⟨h1, h2, h3, h4, h5⟩ := ts { c with gp := c.gp + 1 }
      refine .inr ⟨h3, ?_, by rw [h2], h4, h5⟩
      rw [h1]
      show min (c.gp + 1) 6 = _
      omega

/-- The caller's walk, with the counters of `calling_convention` in place of its
own. -/
def walk : List CTy → Cnt → List Loc
  | [], _ => []
  | t :: ts, c =>
    (match (convStep c t).1 with
     | .inRegs => .regs (placeRegArg t (min c.gp 6) (min c.fp 8)).1
     | .onStack o => .stack o) :: walk ts (convStep c t).2

/-- The counters after all arguments. -/
def after (ts : List CTy) (c : Cnt) : Cnt := ts.foldl (fun c t => (convStep c t).2) c

theorem conv_after (ts : List CTy) : ∀ (c : Cnt), (conv ts c).2 = after ts c := by
  induction ts with
  | nil => exact fun _ => rfl
  | cons t ts ih => exact fun c => by rw [conv]; exact ih _

theorem callerLocs_walk (ts : List CTy) : ∀ (c : Cnt),
    callerLocs ts (conv ts c).1 (min c.gp 6) (min c.fp 8) = walk ts c := by
  induction ts with
  | nil => exact fun _ => rfl
  | cons t ts ih =>
    intro c
    rw [conv, walk]
    rcases convStep_cases c t with ⟨e, hn, -⟩ | ⟨e, h1, h2, -⟩
    · have k1 : (placeRegArg t (min c.gp 6) (min c.fp 8)).2.1 = min (convStep c t).2.gp 6 := by
        rw [hn]
      have k2 : (placeRegArg t (min c.gp 6) (min c.fp 8)).2.2 = min (convStep c t).2.fp 8 := by
        rw [hn]
      simp only [e, callerLocs]
      rw [k1, k2, ih]
    · simp only [e, callerLocs]
      rw [← h1, ← h2, ih]

theorem callArgs_walk (ts : List CTy) (n : Nat) :
    callArgs ts n = (walk ts { gp := b2n (n > 16), fp := 0 },
      after ts { gp := b2n (n > 16), fp := 0 }) := by
  unfold callArgs
  have h := callerLocs_walk ts { gp := b2n (n > 16), fp := 0 }
  have hb : b2n (decide (n > 16)) ≤ 1 := by unfold b2n; split <;> omega
  rw [show min (Cnt.gp { gp := b2n (decide (n > 16)), fp := 0 }) 6 = b2n (decide (n > 16)) by
    simp only; omega] at h
  simp only [Nat.zero_min] at h
  simp only [h, conv_after]

/-- The registers of a location. -/
def regsOf : Loc → List Reg
  | .regs rs => rs
  | .stack _ => []

theorem walk_span (ts : List CTy) : ∀ (c : Cnt),
    Span ((walk ts c).flatMap regsOf) (min c.gp 6) (min (after ts c).gp 6)
      (min c.fp 8) (min (after ts c).fp 8) := by
  induction ts with
  | nil => exact fun c => Span.nil _ _
  | cons t ts ih =>
    intro c
    rw [walk, List.flatMap_cons]
    refine Span.append (g' := min (convStep c t).2.gp 6) (f' := min (convStep c t).2.fp 8) ?_
      (ih (convStep c t).2)
    rcases convStep_cases c t with ⟨e, hn, -⟩ | ⟨e, h1, h2, -⟩
    · have := place_span t (min c.gp 6) (min c.fp 8)
      rw [hn] at this
      simp only [e]
      exact this
    · simp only [e, regsOf]
      rw [h1, h2]
      exact Span.nil _ _

theorem walk_length (ts : List CTy) : ∀ (c : Cnt), (walk ts c).length = ts.length := by
  induction ts with
  | nil => exact fun _ => rfl
  | cons t ts ih => exact fun c => by simp [walk, ih]

theorem walk_append (as bs : List CTy) : ∀ (c : Cnt),
    walk (as ++ bs) c = walk as c ++ walk bs (after as c) := by
  induction as with
  | nil => exact fun _ => rfl
  | cons t ts ih =>
    intro c
    simp only [List.cons_append, walk, ih]
    rfl

theorem after_append (as bs : List CTy) (c : Cnt) :
    after (as ++ bs) c = after bs (after as c) := by
  simp [after, List.foldl_append]

/-! ### The stack -/

theorem alignTo_ge {n a : Nat} (h : 0 < a) : n ≤ alignTo n a := by
  unfold alignTo
  have := Nat.div_add_mod (n + a - 1) a
  have := Nat.mod_lt (n + a - 1) h
  rw [Nat.mul_comm]
  omega

theorem alignTo_dvd (n a : Nat) : a ∣ alignTo n a := ⟨_, Nat.mul_comm ..⟩

/-- The place of a stack argument of this type when `n` bytes are in use. -/
def placeAt (n : Nat) (t : CTy) : Nat := if t.align > 8 then alignTo n t.align else n

theorem placeAt_ge (n : Nat) (t : CTy) : n ≤ placeAt n t := by
  unfold placeAt
  split
  · exact alignTo_ge (by omega)
  · exact Nat.le_refl _

theorem step_stack_ge (c : Cnt) (t : CTy) : c.stack ≤ (convStep c t).2.stack := by
  rcases convStep_cases c t with ⟨-, -, h, -⟩ | ⟨-, -, -, h, -⟩
  · omega
  · have h : (convStep c t).2.stack = placeAt c.stack t + alignTo t.size 8 := h
    have := placeAt_ge c.stack t
    omega

theorem after_stack_ge (ts : List CTy) : ∀ (c : Cnt), c.stack ≤ (after ts c).stack := by
  induction ts with
  | nil => exact fun _ => Nat.le_refl _
  | cons t ts ih => exact fun c => Nat.le_trans (step_stack_ge c t) (ih _)

/-- Arguments on the stack are in order, apart and inside the area. -/
theorem walk_stack (ts : List CTy) : ∀ (c : Cnt) (i : Nat) (o : Nat) (t : CTy),
    (walk ts c)[i]? = some (.stack o) → ts[i]? = some t →
    c.stack ≤ o ∧ o + t.size ≤ (after ts c).stack ∧
    ∀ (j : Nat) (o' : Nat), i < j → (walk ts c)[j]? = some (.stack o') → o + t.size ≤ o' := by
  induction ts with
  | nil => intro c i o t h; simp [walk] at h
  | cons t ts ih =>
    intro c i o t' h ht
    rw [walk] at h ⊢
    cases i with
    | zero =>
      simp only [List.getElem?_cons_zero, Option.some.injEq] at h ht
      subst ht
      rcases convStep_cases c t with ⟨e, -⟩ | ⟨e, -, -, hst, -⟩
      · rw [e] at h; cases h
      · rw [e] at h
        simp only [Loc.stack.injEq] at h
        have ho : placeAt c.stack t = o := h
        have hst : (convStep c t).2.stack = placeAt c.stack t + alignTo t.size 8 := hst
        have h1 := placeAt_ge c.stack t
        have h2 := alignTo_ge (n := t.size) (a := 8) (by omega)
        have h3 := after_stack_ge ts (convStep c t).2
        refine ⟨by omega, by show o + t.size ≤ (after ts (convStep c t).2).stack; omega, ?_⟩
        intro j o' hj hw
        cases j with
        | zero => omega
        | succ j =>
          simp only [List.getElem?_cons_succ] at hw
          have hlen : j < ts.length := by
            have := (List.getElem?_eq_some_iff.mp hw).1
            rwa [walk_length] at this
          have := (ih (convStep c t).2 j o' ts[j] hw (List.getElem?_eq_getElem hlen)).1
          omega
    | succ i =>
      simp only [List.getElem?_cons_succ] at h ht
      obtain ⟨h1, h2, h3⟩ := ih (convStep c t).2 i o t' h ht
      have := step_stack_ge c t
      refine ⟨by omega, h2, ?_⟩
      intro j o' hj hw
      cases j with
      | zero => omega
      | succ j => exact h3 j o' (by omega) (by simpa using hw)

/-- Everything is a multiple of eight, and of its own alignment. -/
theorem walk_aligned (ts : List CTy) : ∀ (c : Cnt), (∀ t ∈ ts, t.align ≤ 8 ∨ 8 ∣ t.align) →
    8 ∣ c.stack →
    8 ∣ (after ts c).stack ∧
    ∀ (i o : Nat) (t : CTy), (walk ts c)[i]? = some (.stack o) → ts[i]? = some t →
      8 ∣ o ∧ (t.align > 8 → t.align ∣ o) := by
  induction ts with
  | nil => exact fun c _ h => ⟨h, by intro i o t h; simp [walk] at h⟩
  | cons t ts ih =>
    intro c ha h8
    have hp : 8 ∣ placeAt c.stack t := by
      unfold placeAt
      split
      · rename_i h
        rcases ha t (by simp) with h' | h'
        · omega
        · exact Nat.dvd_trans h' (alignTo_dvd _ _)
      · exact h8
    have hst : 8 ∣ (convStep c t).2.stack := by
      rcases convStep_cases c t with ⟨-, -, h, -⟩ | ⟨-, -, -, h, -⟩
      · rw [h]; exact h8
      · rw [h]; exact Nat.dvd_add hp (alignTo_dvd _ _)
    obtain ⟨k1, k2⟩ := ih (convStep c t).2 (fun t' ht' => ha t' (by simp [ht'])) hst
    refine ⟨k1, ?_⟩
    intro i o t' h ht
    rw [walk] at h
    cases i with
    | zero =>
      simp only [List.getElem?_cons_zero, Option.some.injEq] at h ht
      subst ht
      rcases convStep_cases c t with ⟨e, -⟩ | ⟨e, -⟩
      · rw [e] at h; cases h
      · rw [e] at h
        simp only [Loc.stack.injEq] at h
        have ho : placeAt c.stack t = o := h
        subst ho
        refine ⟨hp, fun hh => ?_⟩
        unfold placeAt
        rw [if_pos hh]
        exact alignTo_dvd _ _
    | succ i =>
      simp only [List.getElem?_cons_succ] at h ht
      exact k2 i o t' h ht

/-- The largest alignment is a power of two and covers every argument on the
stack. -/
theorem pow_dvd_of_le {a b : Nat} (ha : ∃ k, a = 2 ^ k) (hb : ∃ k, b = 2 ^ k) (h : a ≤ b) :
    a ∣ b := by
  obtain ⟨i, rfl⟩ := ha
  obtain ⟨j, rfl⟩ := hb
  exact Nat.pow_dvd_pow 2 ((Nat.pow_le_pow_iff_right (by omega)).mp h)

theorem step_maxAlign {c : Cnt} {t : CTy} (hc : ∃ k, c.maxAlign = 2 ^ k)
    (ht : ∃ k, t.align = 2 ^ k) :
    (∃ k, (convStep c t).2.maxAlign = 2 ^ k) ∧ c.maxAlign ≤ (convStep c t).2.maxAlign := by
  rcases convStep_cases c t with ⟨-, -, -, h⟩ | ⟨-, -, -, -, h⟩
  · rw [h]; exact ⟨hc, Nat.le_refl _⟩
  · rw [h]
    split
    · refine ⟨?_, Nat.le_max_left _ _⟩
      rcases Nat.le_total c.maxAlign t.align with hle | hle
      · rw [Nat.max_eq_right hle]; exact ht
      · rw [Nat.max_eq_left hle]; exact hc
    · exact ⟨hc, Nat.le_refl _⟩

theorem after_maxAlign (ts : List CTy) : ∀ (c : Cnt), (∃ k, c.maxAlign = 2 ^ k) →
    (∀ t ∈ ts, ∃ k, t.align = 2 ^ k) →
    (∃ k, (after ts c).maxAlign = 2 ^ k) ∧ c.maxAlign ≤ (after ts c).maxAlign ∧
    ∀ (i o : Nat) (t : CTy), (walk ts c)[i]? = some (.stack o) → ts[i]? = some t →
      t.align > 8 → t.align ≤ (after ts c).maxAlign := by
  induction ts with
  | nil => exact fun c h _ => ⟨h, Nat.le_refl _, by intro i o t h; simp [walk] at h⟩
  | cons t ts ih =>
    intro c hc ha
    obtain ⟨s1, s2⟩ := step_maxAlign hc (ha t (by simp))
    obtain ⟨k1, k2, k3⟩ := ih (convStep c t).2 s1 (fun t' ht' => ha t' (by simp [ht']))
    have k2 : (convStep c t).2.maxAlign ≤ (after (t :: ts) c).maxAlign := k2
    refine ⟨k1, by omega, ?_⟩
    intro i o t' h ht hh
    rw [walk] at h
    cases i with
    | zero =>
      simp only [List.getElem?_cons_zero, Option.some.injEq] at h ht
      subst ht
      rcases convStep_cases c t with ⟨e, -⟩ | ⟨e, -, -, -, hm⟩
      · rw [e] at h; cases h
      · rw [if_pos hh] at hm
        have : t.align ≤ max c.maxAlign t.align := Nat.le_max_right _ _
        omega
    | succ i =>
      simp only [List.getElem?_cons_succ] at h ht
      exact k3 i o t' h ht hh

/-- The stack pointer at the call is as aligned as any argument on the stack. -/
theorem callSp_dvd {sp : Nat} {c : Cnt} (hc : ∃ k, c.maxAlign = 2 ^ k) (h16 : 16 ≤ c.maxAlign)
    (hsp : 16 ∣ sp) : 16 ∣ callSp sp c ∧ (c.stack ≠ 0 → c.maxAlign ∣ callSp sp c) := by
  have hd : 16 ∣ c.maxAlign := pow_dvd_of_le ⟨4, rfl⟩ hc h16
  unfold callSp
  split
  · exact ⟨hsp, fun h => absurd (by assumption) h⟩
  · split
    · exact ⟨Nat.dvd_trans hd ⟨_, Nat.mul_comm ..⟩, fun _ => ⟨_, Nat.mul_comm ..⟩⟩
    · have : c.maxAlign = 16 := by omega
      rw [this]
      exact ⟨Nat.dvd_sub hsp (alignTo_dvd _ _), fun _ => Nat.dvd_sub hsp (alignTo_dvd _ _)⟩

theorem callSp_below {sp : Nat} {c : Cnt} (h : c.stack + c.maxAlign ≤ sp) (h16 : 16 ≤ c.maxAlign) :
    callSp sp c + c.stack ≤ sp := by
  unfold callSp
  split
  · omega
  · split
    · have := Nat.div_mul_le_self (sp - c.stack) c.maxAlign
      omega
    · have h1 := alignTo_ge (n := c.stack) (a := 16) (by omega)
      have : alignTo c.stack 16 < c.stack + 16 := by
        unfold alignTo; omega
      omega

end Slimcc.CCL
